import Verif.Heuristics.Spec
import Verif.Filter.Proofs
import Verif.Streaming.Dfg
import Mathlib.Tactic.Linarith
import Mathlib.Tactic.Positivity
import Mathlib.Tactic.FieldSimp
import Mathlib.Tactic.NormNum
import Mathlib.Tactic.Ring
import Mathlib.Data.List.Dedup
/-
Property theorems C77: the heuristics net.
-/
set_option linter.unusedSectionVars false
namespace Verif
open Heuristics Dict
namespace Heuristics
variable {α : Type} [LinearOrder α]

theorem depValue_eq (i : Input α) (a b : α) : depValue i a b = if (a, b) ∈ keys i.dfg then some (dependency i a b) else none := by
  unfold depValue dependency Dict.count
  cases h : get? i.dfg (a, b) with
  | none => rw [if_neg (by rw [mem_keys_iff, h]; simp)]; rfl
  | some n =>
    rw [if_pos (by rw [mem_keys_iff, h]; rfl)]
    by_cases hab : a = b
    · subst hab
      rw [h]
      simp
    · simp only [Option.map_some, ne_eq, hab, not_false_eq_true, if_true, Option.isSome_some, Option.getD_some, if_false]
      cases h' : get? i.dfg (b, a) with
      | none => simp
      | some m => simp

theorem depends_iff (p : Params) (i : Input α) (a b : α) : depends p i a b = true ↔ Depends p i a b := by
  unfold depends Depends
  rw [depValue_eq]
  by_cases h : (a, b) ∈ keys i.dfg <;> simp [h]

theorem enough_iff (p : Params) (i : Input α) (a : α) : enough p i a = true ↔ Frequent p i a := by
  unfold enough Frequent
  cases get? i.occ a <;> simp

theorem often_iff (p : Params) (i : Input α) (a b : α) : often p i a b = true ↔ (a, b) ∈ keys i.dfg ∧ count i.dfg (a, b) ≥ p.minDfg := by
  unfold often Dict.count
  rw [mem_keys_iff]
  cases get? i.dfg (a, b) <;> simp

/-- the condition of the first loop -/
def strongB (p : Params) (i : Input α) (q : α × α) : Bool := enough p i q.1 && enough p i q.2 && often p i q.1 q.2 && depends p i q.1 q.2

theorem strongB_iff (p : Params) (i : Input α) (a b : α) : strongB p i (a, b) = true ↔ Strong p i a b := by
  unfold strongB Strong
  simp only [Bool.and_eq_true, enough_iff, often_iff, depends_iff]
  constructor
  · rintro ⟨⟨⟨h1, h2⟩, h3, h4⟩, h5⟩; exact ⟨h5, h4, h1, h2⟩
  · rintro ⟨h5, h4, h1, h2⟩; exact ⟨⟨⟨h1, h2⟩, h5.1, h4⟩, h5⟩

theorem mem_addNode (l : List α) (a x : α) : x ∈ addNode l a ↔ x ∈ l ∨ x = a := by
  unfold addNode
  split
  · constructor
    · exact .inl
    · rintro (h | rfl) <;> assumption
  · simp

theorem nodup_addNode {l : List α} (h : l.Nodup) (a : α) : (addNode l a).Nodup := by
  unfold addNode
  split
  · exact h
  · rw [List.nodup_append]
    refine ⟨h, by simp, ?_⟩
    rintro x hx y hy rfl
    simp only [List.mem_singleton] at hy
    subst hy
    contradiction

theorem strong_fold (p : Params) (i : Input α) (l : List ((α × α) × Int)) : ∀ h : Net α, h.nodes.Nodup →
    let S := l.filter fun e => strongB p i e.1
    let r := l.foldl (strongStep p i) h
    r.outs = h.outs ++ S.map (fun e => (e.1, ((depValue i e.1.1 e.1.2).getD 0, e.2))) ∧
    r.ins = h.ins ++ S.map (fun e => (e.1, ((depValue i e.1.1 e.1.2).getD 0, e.2))) ∧
    r.nodes.Nodup ∧ ∀ x, x ∈ r.nodes ↔ x ∈ h.nodes ∨ ∃ e ∈ S, x = e.1.1 ∨ x = e.1.2 := by
  induction l with
  | nil => intro h hn; simp [hn]
  | cons e l ih =>
    intro h hn
    simp only
    rw [List.foldl_cons]
    by_cases hs : strongB p i e.1 = true
    · have e1 : strongStep p i h e = ⟨addNode (addNode h.nodes e.1.1) e.1.2, h.outs ++ [(e.1, ((depValue i e.1.1 e.1.2).getD 0, e.2))],
          h.ins ++ [(e.1, ((depValue i e.1.1 e.1.2).getD 0, e.2))]⟩ := by
        unfold strongStep
        unfold strongB at hs
        simp only
        rw [if_pos hs]
      obtain ⟨h1, h2, h3, h4⟩ := ih (strongStep p i h e) (by rw [e1]; exact nodup_addNode (nodup_addNode hn _) _)
      rw [List.filter_cons_of_pos (p := fun e : (α × α) × Int => strongB p i e.1) hs]
      rw [e1] at h1 h2 h4
      rw [e1] at h3
      refine ⟨by rw [e1, h1]; simp, by rw [e1, h2]; simp, by rw [e1]; exact h3, fun x => ?_⟩
      rw [e1, h4]
      simp only [mem_addNode, List.mem_cons, exists_eq_or_imp]
      simp only [or_assoc]
    · have e1 : strongStep p i h e = h := by
        unfold strongStep
        unfold strongB at hs
        simp only
        rw [if_neg hs]
      rw [e1, List.filter_cons_of_neg (p := fun e : (α × α) × Int => strongB p i e.1) hs]
      exact ih h hn

theorem mem_filter_dfg {i : Input α} (hw : WF i) (f : α × α → Bool) (q : α × α) (n : Int) :
    (q, n) ∈ (i.dfg.filter fun e => f e.1) ↔ get? i.dfg q = some n ∧ f q = true := by
  rw [List.mem_filter]
  constructor
  · rintro ⟨h1, h2⟩; exact ⟨get?_of_mem_nodup hw.dfg h1, h2⟩
  · rintro ⟨h1, h2⟩; exact ⟨mem_of_get? h1, h2⟩

/-- the value of a connection -/
def strongOut (i : Input α) (e : (α × α) × Int) : (α × α) × (Rat × Int) := (e.1, ((depValue i e.1.1 e.1.2).getD 0, e.2))

theorem strong_outs (p : Params) (i : Input α) : (strong p i).outs = (i.dfg.filter fun e => strongB p i e.1).map (strongOut i) := by
  obtain ⟨h1, _⟩ := strong_fold p i i.dfg ⟨[], [], []⟩ (by simp)
  rw [List.nil_append] at h1
  exact h1

theorem strong_ins (p : Params) (i : Input α) : (strong p i).ins = (i.dfg.filter fun e => strongB p i e.1).map (strongOut i) := by
  obtain ⟨_, h1, _⟩ := strong_fold p i i.dfg ⟨[], [], []⟩ (by simp)
  rw [List.nil_append] at h1
  exact h1

theorem strong_nodup (p : Params) (i : Input α) : (strong p i).nodes.Nodup :=
  (strong_fold p i i.dfg ⟨[], [], []⟩ (by simp)).2.2.1

theorem mem_strongArcs {i : Input α} (hw : WF i) (p : Params) (a b : α) :
    (a, b) ∈ (i.dfg.filter fun e => strongB p i e.1).map Prod.fst ↔ Strong p i a b := by
  rw [List.mem_map]
  constructor
  · rintro ⟨⟨q, n⟩, h, rfl⟩
    exact (strongB_iff p i a b).1 ((mem_filter_dfg hw _ _ _).1 h).2
  · intro h
    have hk := h.1.1
    rw [mem_keys_iff, Option.isSome_iff_exists] at hk
    obtain ⟨n, hn⟩ := hk
    exact ⟨((a, b), n), (mem_filter_dfg hw _ _ _).2 ⟨hn, (strongB_iff p i a b).2 h⟩, rfl⟩

theorem mem_strong_nodes {i : Input α} (hw : WF i) (p : Params) (x : α) :
    x ∈ (strong p i).nodes ↔ ∃ c, Strong p i x c ∨ Strong p i c x := by
  have := (strong_fold p i i.dfg ⟨[], [], []⟩ (by simp)).2.2.2 x
  unfold strong
  rw [this]
  constructor
  · rintro (h | ⟨⟨⟨a, b⟩, n⟩, he, h⟩)
    · simp at h
    · have hs := (mem_strongArcs hw p a b).1 (List.mem_map.2 ⟨_, he, rfl⟩)
      rcases h with rfl | rfl
      · exact ⟨b, .inl hs⟩
      · exact ⟨a, .inr hs⟩
  · rintro ⟨c, h | h⟩
    · obtain ⟨e, he, h'⟩ := List.mem_map.1 ((mem_strongArcs hw p x c).2 h)
      exact .inr ⟨e, he, .inl (by rw [h'])⟩
    · obtain ⟨e, he, h'⟩ := List.mem_map.1 ((mem_strongArcs hw p c x).2 h)
      exact .inr ⟨e, he, .inr (by rw [h'])⟩

/-! ### loops of length two -/

def loopOut (i : Input α) (q : α × α) : (α × α) × (Rat × Int) := (q, (0, freq i q.1 q.2))
def loopIn (i : Input α) (q : α × α) : (α × α) × (Rat × Int) := (q, (0, freq i q.2 q.1))

structure Inv (i : Input α) (h : Net α) (s : Net α × List (α × α)) : Prop where
  nodup : s.2.Nodup
  outs : s.1.outs = h.outs ++ s.2.map (loopOut i)
  ins : s.1.ins = h.ins ++ s.2.map (loopIn i)

theorem addLoop_inv {i : Input α} {h : Net α} {s : Net α × List (α × α)} (hi : Inv i h s) (q : α × α) :
    Inv i h (addLoop i s q) ∧ (addLoop i s q).1.nodes = s.1.nodes ∧ ∀ x, x ∈ (addLoop i s q).2 ↔ x ∈ s.2 ∨ x = q := by
  unfold addLoop
  split
  · next hq =>
    refine ⟨hi, rfl, fun x => ⟨.inl, ?_⟩⟩
    rintro (h | rfl) <;> assumption
  · next hq =>
    refine ⟨⟨?_, ?_, ?_⟩, rfl, fun x => by simp⟩
    · rw [List.nodup_append]
      refine ⟨hi.nodup, by simp, ?_⟩
      rintro x hx y hy rfl
      simp only [List.mem_singleton] at hy
      subst hy
      contradiction
    · simp [hi.outs, loopOut]
    · simp [hi.ins, loopIn]

theorem loop_fold (p : Params) (i : Input α) (h : Net α) (Q : List (α × α)) : ∀ s : Net α × List (α × α), Inv i h s → s.1.nodes.Nodup →
    let r := Q.foldl (loopStep p i) s
    Inv i h r ∧ r.1.nodes.Nodup ∧ (∀ x, x ∈ r.1.nodes ↔ x ∈ s.1.nodes ∨ ∃ q ∈ Q, loopCond p i q.1 q.2 = true ∧ x = q.2) ∧
    ∀ x, x ∈ r.2 ↔ x ∈ s.2 ∨ ∃ q ∈ Q, loopCond p i q.1 q.2 = true ∧ (x = q ∨ x = (q.2, q.1)) := by
  induction Q with
  | nil => intro s hi hn; simp [hi, hn]
  | cons q Q ih =>
    intro s hi hn
    simp only
    rw [List.foldl_cons]
    by_cases hc : loopCond p i q.1 q.2 = true
    · have e1 : loopStep p i s q = addLoop i (addLoop i ({ s.1 with nodes := addNode s.1.nodes q.2 }, s.2) (q.1, q.2)) (q.2, q.1) := by
        unfold loopStep
        rw [if_pos hc]
      have hi0 : Inv i h ({ s.1 with nodes := addNode s.1.nodes q.2 }, s.2) := ⟨hi.nodup, hi.outs, hi.ins⟩
      obtain ⟨i1, n1, m1⟩ := addLoop_inv hi0 (q.1, q.2)
      obtain ⟨i2, n2, m2⟩ := addLoop_inv i1 (q.2, q.1)
      rw [← e1] at i2 n2 m2
      rw [n1] at n2
      simp only at n2
      obtain ⟨r1, r2, r3, r4⟩ := ih (loopStep p i s q) i2 (by rw [n2]; exact nodup_addNode hn _)
      refine ⟨r1, r2, fun x => ?_, fun x => ?_⟩
      · rw [r3, n2, mem_addNode]
        simp only [List.mem_cons, exists_eq_or_imp, hc, true_and]
        tauto
      · rw [r4, m2, m1]
        simp only [Prod.mk.eta, List.mem_cons, exists_eq_or_imp, hc, true_and]
        simp only [or_assoc]
    · have e1 : loopStep p i s q = s := by
        unfold loopStep
        rw [if_neg hc]
      rw [e1]
      obtain ⟨r1, r2, r3, r4⟩ := ih s hi hn
      refine ⟨r1, r2, fun x => ?_, fun x => ?_⟩
      · rw [r3]
        simp [hc]
      · rw [r4]
        simp [hc]

theorem loopCond_iff (p : Params) (i : Input α) (a b : α) : loopCond p i a b = true ↔
    (a, b) ∈ keys i.dfg ∧ count i.dfg (a, b) ≥ p.minDfg ∧ Frequent p i a ∧ Frequent p i b ∧ ¬ Depends p i a b ∧ ¬ Depends p i b a := by
  unfold loopCond
  simp only [Bool.and_eq_true, Bool.not_eq_true', Bool.or_eq_false_iff, often_iff, enough_iff]
  have h1 : depends p i a b = false ↔ ¬ Depends p i a b := by rw [← depends_iff]; simp
  have h2 : depends p i b a = false ↔ ¬ Depends p i b a := by rw [← depends_iff]; simp
  rw [h1, h2]
  tauto

theorem mem_loopTwo {i : Input α} (p : Params) (a b : α) :
    b ∈ loopTwo p i a ↔ a ≠ b ∧ (a, b, a) ∈ keys i.triples ∧ loopMeasure i a b ≥ p.loop2 := by
  unfold loopTwo
  simp only
  rw [List.mem_filter, List.mem_filterMap]
  have hv : ∀ h : a ≠ b, (((triple i a b).getD 0 + (triple i b a).getD 0 : Int) : Rat) / (((triple i a b).getD 0 + (triple i b a).getD 0 + 1 : Int) : Rat) =
      loopMeasure i a b := by
    intro h
    have h' : b ≠ a := h.symm
    unfold triple loopMeasure Dict.count
    simp [h, h']
  constructor
  · rintro ⟨⟨⟨⟨x, y, z⟩, n⟩, he, h1⟩, h2⟩
    simp only at h1
    split at h1
    · next hc =>
      obtain ⟨c1, c2, c3⟩ := hc
      simp only [Option.some.injEq] at h1
      subst c1 c3 h1
      refine ⟨c2, List.mem_map.2 ⟨_, he, rfl⟩, ?_⟩
      rw [decide_eq_true_eq, hv c2] at h2
      exact h2
    · simp at h1
  · rintro ⟨h1, h2, h3⟩
    obtain ⟨⟨k, n⟩, he, hk⟩ := List.mem_map.1 h2
    simp only at hk
    subst hk
    refine ⟨⟨_, he, by simp [h1]⟩, ?_⟩
    rw [decide_eq_true_eq, hv h1]
    exact h3

/-- the candidates for loops -/
def cands (p : Params) (i : Input α) : List (α × α) := (strong p i).nodes.flatMap fun a => (loopTwo p i a).map fun b => (a, b)

theorem cand_iff {i : Input α} (hw : WF i) (p : Params) (a b : α) : ((a, b) ∈ cands p i ∧ loopCond p i a b = true) ↔ Loop p i a b := by
  unfold cands Loop
  rw [List.mem_flatMap, loopCond_iff]
  constructor
  · rintro ⟨⟨x, hx, h⟩, hc⟩
    obtain ⟨y, hy, e⟩ := List.mem_map.1 h
    obtain ⟨rfl, rfl⟩ := Prod.mk.inj e
    obtain ⟨h1, h2, h3⟩ := (mem_loopTwo p x y).1 hy
    exact ⟨(mem_strong_nodes hw p x).1 hx, h1, h2, h3, hc⟩
  · rintro ⟨h0, h1, h2, h3, hc⟩
    exact ⟨⟨a, (mem_strong_nodes hw p a).2 h0, List.mem_map.2 ⟨b, (mem_loopTwo p a b).2 ⟨h1, h2, h3⟩, rfl⟩⟩, hc⟩

/-- the state after the loops -/
def looped (p : Params) (i : Input α) : Net α × List (α × α) := (cands p i).foldl (loopStep p i) (strong p i, [])

theorem looped_ok (p : Params) (i : Input α) : Inv i (strong p i) (looped p i) ∧ (looped p i).1.nodes.Nodup ∧
    (∀ x, x ∈ (looped p i).1.nodes ↔ x ∈ (strong p i).nodes ∨ ∃ q ∈ cands p i, loopCond p i q.1 q.2 = true ∧ x = q.2) ∧
    ∀ x, x ∈ (looped p i).2 ↔ ∃ q ∈ cands p i, loopCond p i q.1 q.2 = true ∧ (x = q ∨ x = (q.2, q.1)) := by
  obtain ⟨h1, h2, h3, h4⟩ := loop_fold p i (strong p i) (cands p i) (strong p i, []) ⟨by simp, by simp, by simp⟩ (strong_nodup p i)
  refine ⟨h1, h2, h3, fun x => ?_⟩
  have := h4 x
  simp only [List.not_mem_nil, false_or] at this
  exact this

theorem calculate_eq (p : Params) (i : Input α) (acts : List α) :
    calculate p i acts = if (looped p i).1.nodes.length = 0 then { (looped p i).1 with nodes := acts } else (looped p i).1 := rfl

theorem calculate_outs (p : Params) (i : Input α) (acts : List α) : (calculate p i acts).outs = (looped p i).1.outs := by
  rw [calculate_eq]; split <;> rfl

theorem calculate_ins (p : Params) (i : Input α) (acts : List α) : (calculate p i acts).ins = (looped p i).1.ins := by
  rw [calculate_eq]; split <;> rfl

theorem mem_looped {i : Input α} (hw : WF i) (p : Params) (a b : α) : (a, b) ∈ (looped p i).2 ↔ Loop p i a b ∨ Loop p i b a := by
  obtain ⟨_, _, _, h4⟩ := looped_ok p i
  have := h4 (a, b)
  rw [this]
  constructor
  · rintro ⟨⟨x, y⟩, hq, hc, e | e⟩
    · obtain ⟨rfl, rfl⟩ := Prod.mk.inj e
      exact .inl ((cand_iff hw p _ _).1 ⟨hq, hc⟩)
    · obtain ⟨rfl, rfl⟩ := Prod.mk.inj e
      exact .inr ((cand_iff hw p _ _).1 ⟨hq, hc⟩)
  · rintro (h | h)
    · obtain ⟨h1, h2⟩ := (cand_iff hw p _ _).2 h
      exact ⟨(a, b), h1, h2, .inl rfl⟩
    · obtain ⟨h1, h2⟩ := (cand_iff hw p _ _).2 h
      exact ⟨(b, a), h1, h2, .inr rfl⟩

theorem mem_laterPairs {l : List α} (h : l.Pairwise (· < ·)) (x y : α) : (x, y) ∈ laterPairs l ↔ x ∈ l ∧ y ∈ l ∧ x < y := by
  induction l with
  | nil => simp [laterPairs]
  | cons a l ih =>
    obtain ⟨h1, h2⟩ := List.pairwise_cons.1 h
    simp only [laterPairs, List.mem_append, List.mem_map, Prod.mk.injEq, ih h2, List.mem_cons]
    constructor
    · rintro (⟨z, hz, rfl, rfl⟩ | ⟨a1, a2, a3⟩)
      · exact ⟨.inl rfl, .inr hz, h1 z hz⟩
      · exact ⟨.inr a1, .inr a2, a3⟩
    · rintro ⟨rfl | hx, rfl | hy, hlt⟩
      · exact absurd hlt (lt_irrefl _)
      · exact .inl ⟨y, hy, rfl, rfl⟩
      · exact absurd hlt (not_lt.2 (le_of_lt (h1 x hx)))
      · exact .inr ⟨hx, hy, hlt⟩

theorem sorted_dedup (l : List α) : ((l.dedup).insertionSort (· ≤ ·)).Pairwise (· < ·) := by
  have h1 : ((l.dedup).insertionSort (· ≤ ·)).Pairwise (· ≤ ·) := List.pairwise_insertionSort _ _
  have h2 : ((l.dedup).insertionSort (· ≤ ·)).Nodup := (List.perm_insertionSort _ _).nodup_iff.2 (List.nodup_dedup l)
  exact (h1.and h2).imp fun ⟨h, h'⟩ => lt_of_le_of_ne h h'

/-! ### the input -/

theorem rows_cons (a b c x : α) (t : List α) : rows a b c (x :: t) =
    (if x = a ∧ t[0]? = some b ∧ t[1]? = some c then 1 else 0) + rows a b c t := by
  unfold rows
  rw [List.length_cons, List.range_succ_eq_map, List.filter_cons]
  have e : ((List.map Nat.succ (List.range t.length)).filter fun i =>
      decide ((x :: t)[i]? = some a ∧ (x :: t)[i + 1]? = some b ∧ (x :: t)[i + 2]? = some c)).length =
      ((List.range t.length).filter fun i => decide (t[i]? = some a ∧ t[i + 1]? = some b ∧ t[i + 2]? = some c)).length := by
    rw [List.filter_map, List.length_map]
    rfl
  by_cases h : x = a ∧ t[0]? = some b ∧ t[1]? = some c
  · rw [if_pos h, if_pos (by simpa using h), List.length_cons, e, Nat.add_comm]
  · rw [if_neg h, if_neg (by simpa using h), e, Nat.zero_add]

theorem cnt_triplesOf (a b c : α) (t : List α) : Counter.cnt (a, b, c) (triplesOf t) = rows a b c t := by
  induction t with
  | nil => rfl
  | cons x t ih =>
    rw [rows_cons, ← ih]
    cases t with
    | nil => simp [triplesOf]
    | cons y t =>
      cases t with
      | nil => simp [triplesOf]
      | cons z t =>
        have : triplesOf (x :: y :: z :: t) = (x, y, z) :: triplesOf (y :: z :: t) := rfl
        rw [this, Counter.cnt_cons, Nat.add_comm]
        simp [Prod.mk.injEq]

end Heuristics

variable {α : Type} [LinearOrder α]

/-- C77: the input taken from an event log: the occurrences of the activities, the three activities in a row, and those direct successions that are not
noise, i.e. that at one of their activities reach the given share of every direct succession. -/
theorem C77_input (noise : Rat) (log : List (List α)) :
    WF (inputOf noise log) ∧
    (∀ a n, get? (inputOf noise log).occ a = some n ↔ n = Dfg.occurrences a log ∧ 0 < n) ∧
    (∀ a b c n, get? (inputOf noise log).triples (a, b, c) = some n ↔ n = ((log.map (rows a b c)).sum : Nat) ∧ 0 < n) ∧
    (∀ a b n, get? (inputOf noise log).dfg (a, b) = some n ↔ n = Dfg.followsLog 1 a b log ∧ 0 < n ∧
      ((∀ x y, x = a ∨ y = a → (Dfg.followsLog 1 x y log : Rat) * noise ≤ n) ∨
       (∀ x y, x = b ∨ y = b → (Dfg.followsLog 1 x y log : Rat) * noise ≤ n))) := by
  have hget : ∀ {δ : Type} [DecidableEq δ] (l : List δ) (k : δ) (n : Int), get? (Counter.ofList l) k = some n ↔ n = Counter.cnt k l ∧ 0 < n := by
    intro δ _ l k n
    rw [StreamDfg.get?_ofList]
    split
    · next h =>
      simp only [reduceCtorEq, h, false_iff]
      omega
    · next h =>
      rw [Option.some.injEq]
      constructor
      · rintro rfl; exact ⟨rfl, by omega⟩
      · rintro ⟨rfl, _⟩; rfl
  have hnd : (keys (Dfg.native 1 false log)).Nodup := Counter.nodup_ofList _
  have hnat : ∀ a b n, get? (Dfg.native 1 false log) (a, b) = some n ↔ n = Dfg.followsLog 1 a b log ∧ 0 < n := by
    intro a b n
    have h1 := (C17_native 1 log a b).1
    rw [Dfg.native, hget]
    rw [Dfg.native, Counter.count_ofList] at h1
    rw [h1]
  have hmem : ∀ a b n, ((a, b), n) ∈ Dfg.native 1 false log ↔ n = Dfg.followsLog 1 a b log ∧ 0 < n := by
    intro a b n
    rw [← hnat]
    exact ⟨get?_of_mem_nodup hnd, mem_of_get?⟩
  have hpos : ∀ e ∈ Dfg.native 1 false log, 0 ≤ e.2 := by
    rintro ⟨⟨a, b⟩, n⟩ he
    exact le_of_lt ((hmem a b n).1 he).2
  have hdnd : (keys (inputOf noise log).dfg).Nodup := by
    unfold inputOf
    simp only
    split
    · exact hnd.sublist (List.filter_sublist.map Prod.fst)
    · exact hnd
  have hd : ∀ a b n, get? (inputOf noise log).dfg (a, b) = some n ↔ n = Dfg.followsLog 1 a b log ∧ 0 < n ∧
      ((∀ x y, x = a ∨ y = a → (Dfg.followsLog 1 x y log : Rat) * noise ≤ n) ∨
       (∀ x y, x = b ∨ y = b → (Dfg.followsLog 1 x y log : Rat) * noise ≤ n)) := by
    intro a b n
    have hm : get? (inputOf noise log).dfg (a, b) = some n ↔ ((a, b), n) ∈ (inputOf noise log).dfg :=
      ⟨mem_of_get?, get?_of_mem_nodup hdnd⟩
    rw [hm, ← and_assoc, ← hmem]
    unfold inputOf
    simp only
    split
    · next hn =>
      have key : 0 ≤ n → ∀ z, (∀ f ∈ Dfg.native 1 false log, f.1.1 = z ∨ f.1.2 = z → (f.2 : Rat) * noise ≤ n) ↔
          (∀ x y, x = z ∨ y = z → (Dfg.followsLog 1 x y log : Rat) * noise ≤ n) := by
        intro h0 z
        have h0' : (0 : Rat) ≤ n := by exact_mod_cast h0
        constructor
        · intro h x y hz
          by_cases hp : Dfg.followsLog 1 x y log = 0
          · rw [hp]; simpa using h0'
          · have := h ((x, y), (Dfg.followsLog 1 x y log : Int)) ((hmem _ _ _).2 ⟨rfl, by omega⟩) hz
            simpa using this
        · rintro h ⟨⟨x, y⟩, m⟩ hf hz
          have := h x y hz
          rw [((hmem x y m).1 hf).1]
          simpa using this
      by_cases hin : ((a, b), n) ∈ Dfg.native 1 false log
      · rw [C40_noise_iff _ hpos noise (le_of_lt hn) [] _ hin]
        have h0 := hpos _ hin
        rw [key h0, key h0]
        simp [hin]
      · constructor
        · intro h; exact absurd (List.mem_of_mem_filter h) hin
        · rintro ⟨h, _⟩; exact absurd h hin
    · next hn =>
      constructor
      · intro h
        refine ⟨h, .inl fun x y _ => ?_⟩
        have h0 : (0 : Rat) < n := by exact_mod_cast ((hmem _ _ _).1 h).2
        have h1 : (0 : Rat) ≤ (Dfg.followsLog 1 x y log : Rat) := by positivity
        have h2 : (Dfg.followsLog 1 x y log : Rat) * noise ≤ 0 := mul_nonpos_of_nonneg_of_nonpos h1 (not_lt.1 hn)
        linarith
      · exact fun h => h.1
  refine ⟨⟨hdnd, ?_, Counter.nodup_ofList _⟩, ?_, ?_, hd⟩
  · intro a b n h
    exact ((hd a b n).1 h).2.1
  · intro a n
    show get? (Counter.ofList log.flatten) a = some n ↔ _
    rw [hget]
    have : Counter.cnt a log.flatten = Dfg.occurrences a log := by
      unfold Dfg.occurrences
      rw [Counter.cnt_eq_count, List.count_flatten]
    rw [this]
  · intro a b c n
    show get? (Counter.ofList (log.flatMap triplesOf)) (a, b, c) = some n ↔ _
    rw [hget, Counter.cnt_flatMap]
    simp only [cnt_triplesOf]

/-- C77: the dependency measure is between -1 and 1, and exchanging the activities changes its sign. -/
theorem C77_dependency (i : Input α) (hw : WF i) (a b : α) :
    -1 < dependency i a b ∧ dependency i a b < 1 ∧ (a ≠ b → dependency i a b = - dependency i b a) := by
  have hn : ∀ a b, 0 ≤ count i.dfg (a, b) := by
    intro a b
    unfold Dict.count
    cases h : get? i.dfg (a, b) with
    | none => simp
    | some n => exact le_of_lt (hw.pos a b n h)
  have hq : ∀ a b, (0 : Rat) ≤ (count i.dfg (a, b) : Rat) := fun a b => by exact_mod_cast hn a b
  have h1 := hq a b
  have h2 := hq b a
  have h3 := hq a a
  refine ⟨?_, ?_, ?_⟩
  · unfold dependency
    split
    · rw [lt_div_iff₀ (by linarith)]; linarith
    · rw [lt_div_iff₀ (by linarith)]; linarith
  · unfold dependency
    split
    · rw [div_lt_one (by linarith)]; linarith
    · rw [div_lt_one (by linarith)]; linarith
  · intro hab
    unfold dependency
    rw [if_neg hab, if_neg fun e => hab e.symm, ← neg_div]
    congr 1
    · ring
    · ring

/-- C77: the connections of the heuristics net are exactly the strong ones and both directions of the loops of length two; there is exactly one
connection for each. -/
theorem C77_arcs (p : Params) (i : Input α) (hw : WF i) (acts : List α) (a b : α) :
    ((a, b) ∈ (calculate p i acts).arcs ↔ Strong p i a b ∨ Loop p i a b ∨ Loop p i b a) ∧ (calculate p i acts).arcs.Nodup := by
  obtain ⟨hi, _⟩ := looped_ok p i
  have ho : (calculate p i acts).arcs = (i.dfg.filter fun e => strongB p i e.1).map Prod.fst ++ (looped p i).2 := by
    unfold Net.arcs
    rw [calculate_outs]
    rw [hi.outs, strong_outs, List.map_append, List.map_map, List.map_map]
    congr 1
    have : (Prod.fst ∘ loopOut i) = id := rfl
    rw [this, List.map_id]
  rw [ho, List.mem_append, mem_strongArcs hw, mem_looped hw]
  refine ⟨Iff.rfl, ?_⟩
  rw [List.nodup_append]
  refine ⟨?_, hi.nodup, ?_⟩
  · exact hw.dfg.sublist (List.filter_sublist.map Prod.fst)
  · rintro ⟨x, y⟩ hx q hq rfl
    have h1 := (mem_strongArcs hw p x y).1 hx
    rcases (mem_looped hw p x y).1 hq with h | h
    · exact h.2.2.2.2.2.2.2.2.1 h1.1
    · exact h.2.2.2.2.2.2.2.2.2 h1.1

/-- C77: the nodes are exactly the activities with a connection; only if there is no connection at all, they are the given activities. -/
theorem C77_nodes (p : Params) (i : Input α) (hw : WF i) (acts : List α) :
    ((calculate p i acts).arcs ≠ [] → (calculate p i acts).nodes.Nodup ∧
      ∀ x, x ∈ (calculate p i acts).nodes ↔ ∃ y, (x, y) ∈ (calculate p i acts).arcs ∨ (y, x) ∈ (calculate p i acts).arcs) ∧
    ((calculate p i acts).arcs = [] → (calculate p i acts).nodes = acts) := by
  obtain ⟨hi, hn, hx, _⟩ := looped_ok p i
  have harc := fun a b => (C77_arcs p i hw acts a b).1
  have hnode : ∀ x, x ∈ (looped p i).1.nodes ↔ ∃ y, (x, y) ∈ (calculate p i acts).arcs ∨ (y, x) ∈ (calculate p i acts).arcs := by
    intro x
    rw [hx]
    simp only [harc, mem_strong_nodes hw]
    constructor
    · rintro (⟨c, h | h⟩ | ⟨⟨u, w⟩, hq, hc, rfl⟩)
      · exact ⟨c, .inl (.inl h)⟩
      · exact ⟨c, .inr (.inl h)⟩
      · exact ⟨u, .inr (.inr (.inl ((cand_iff hw p u _).1 ⟨hq, hc⟩)))⟩
    · have key : ∀ y, Loop p i x y ∨ Loop p i y x →
          (∃ c, Strong p i x c ∨ Strong p i c x) ∨ ∃ q ∈ cands p i, loopCond p i q.1 q.2 = true ∧ x = q.2 := by
        rintro y (h | h)
        · exact .inl h.1
        · obtain ⟨h1, h2⟩ := (cand_iff hw p y x).2 h
          exact .inr ⟨(y, x), h1, h2, rfl⟩
      rintro ⟨y, (h | h | h) | (h | h | h)⟩
      · exact .inl ⟨y, .inl h⟩
      · exact key y (.inl h)
      · exact key y (.inr h)
      · exact .inl ⟨y, .inr h⟩
      · exact key y (.inr h)
      · exact key y (.inl h)
  constructor
  · intro hne
    obtain ⟨⟨a, b⟩, hab⟩ := List.exists_mem_of_ne_nil _ hne
    have ha : a ∈ (looped p i).1.nodes := (hnode a).2 ⟨b, .inl hab⟩
    have e : (calculate p i acts).nodes = (looped p i).1.nodes := by
      rw [calculate_eq, if_neg]
      intro h0
      rw [List.length_eq_zero_iff.1 h0] at ha
      simp at ha
    rw [e]
    exact ⟨hn, hnode⟩
  · intro he
    have : (looped p i).1.nodes = [] := by
      rw [List.eq_nil_iff_forall_not_mem]
      intro x hx
      obtain ⟨y, h⟩ := (hnode x).1 hx
      rw [he] at h
      simp at h
    rw [calculate_eq, this]
    rfl

/-- C77: every connection carries its dependency measure and its frequency; a loop connection has the dependency 0 and, at the target, the frequency
of the other direction. -/
theorem C77_values (p : Params) (i : Input α) (hw : WF i) (acts : List α) (a b : α) (v : Rat × Int) :
    (((a, b), v) ∈ (calculate p i acts).outs ↔
      (Strong p i a b ∧ v = (dependency i a b, count i.dfg (a, b))) ∨ ((Loop p i a b ∨ Loop p i b a) ∧ v = (0, count i.dfg (a, b)))) ∧
    (((a, b), v) ∈ (calculate p i acts).ins ↔
      (Strong p i a b ∧ v = (dependency i a b, count i.dfg (a, b))) ∨ ((Loop p i a b ∨ Loop p i b a) ∧ v = (0, count i.dfg (b, a)))) := by
  obtain ⟨hi, _⟩ := looped_ok p i
  have hs : ((a, b), v) ∈ (i.dfg.filter fun e => strongB p i e.1).map (strongOut i) ↔
      Strong p i a b ∧ v = (dependency i a b, count i.dfg (a, b)) := by
    rw [List.mem_map]
    constructor
    · rintro ⟨⟨q, n⟩, h, e⟩
      obtain ⟨rfl, rfl⟩ := Prod.mk.inj e
      have hst := (mem_strongArcs hw p a b).1 (List.mem_map.2 ⟨_, h, rfl⟩)
      refine ⟨hst, ?_⟩
      have hg := ((mem_filter_dfg hw _ _ _).1 h).1
      rw [depValue_eq, if_pos hst.1.1, Option.getD_some]
      unfold Dict.count
      rw [hg]
      rfl
    · rintro ⟨h, rfl⟩
      have hk := h.1.1
      rw [mem_keys_iff, Option.isSome_iff_exists] at hk
      obtain ⟨n, hn⟩ := hk
      refine ⟨((a, b), n), (mem_filter_dfg hw _ _ _).2 ⟨hn, (strongB_iff p i a b).2 h⟩, ?_⟩
      unfold strongOut
      rw [depValue_eq, if_pos h.1.1, Option.getD_some]
      unfold Dict.count
      rw [hn]
      rfl
  have hl : ∀ f : α × α → Rat × Int, ((a, b), v) ∈ (looped p i).2.map (fun q => (q, f q)) ↔ (Loop p i a b ∨ Loop p i b a) ∧ v = f (a, b) := by
    intro f
    rw [← mem_looped hw, List.mem_map]
    constructor
    · rintro ⟨q, hq, e⟩
      obtain ⟨rfl, rfl⟩ := Prod.mk.inj e
      exact ⟨hq, rfl⟩
    · rintro ⟨h, rfl⟩
      exact ⟨_, h, rfl⟩
  constructor
  · rw [calculate_outs]
    have := hi.outs
    rw [this, strong_outs, List.mem_append, hs]
    exact or_congr_right (hl fun q => (0, freq i q.1 q.2))
  · rw [calculate_ins]
    have := hi.ins
    rw [this, strong_ins, List.mem_append, hs]
    exact or_congr_right (hl fun q => (0, freq i q.2 q.1))

/-- C77: the AND-measures of a node are those of the pairs of its strong connections (loops of length two are not considered) that reach the
threshold. -/
theorem C77_and (p : Params) (i : Input α) (hw : WF i) (n x y : α) (v : Rat) :
    (((x, y), v) ∈ andOut p i (strong p i) n ↔ Strong p i n x ∧ Strong p i n y ∧ x < y ∧ v ≥ p.andM ∧
      v = ((count i.dfg (x, y) : Rat) + count i.dfg (y, x)) / (count i.dfg (n, x) + count i.dfg (n, y) + 1)) ∧
    (((x, y), v) ∈ andIn p i (strong p i) n ↔ Strong p i x n ∧ Strong p i y n ∧ x < y ∧ v ≥ p.andM ∧
      v = ((count i.dfg (x, y) : Rat) + count i.dfg (y, x)) / (count i.dfg (x, n) + count i.dfg (y, n) + 1)) := by
  have hout : ∀ z, z ∈ (((((strong p i).outs.filter fun e => decide (e.1.1 = n)).map fun e => e.1.2).dedup).insertionSort (· ≤ ·)) ↔ Strong p i n z := by
    intro z
    rw [List.mem_insertionSort, List.mem_dedup, List.mem_map, strong_outs, ← mem_strongArcs hw, List.mem_map]
    constructor
    · rintro ⟨e, he, rfl⟩
      obtain ⟨he, hn⟩ := List.mem_filter.1 he
      obtain ⟨f, hf, rfl⟩ := List.mem_map.1 he
      have hn : f.1.1 = n := of_decide_eq_true hn
      exact ⟨f, hf, by rw [← hn]; rfl⟩
    · rintro ⟨f, hf, he⟩
      refine ⟨strongOut i f, List.mem_filter.2 ⟨List.mem_map_of_mem hf, ?_⟩, ?_⟩
      · simp [strongOut, he]
      · simp [strongOut, he]
  have hin : ∀ z, z ∈ (((((strong p i).ins.filter fun e => decide (e.1.2 = n)).map fun e => e.1.1).dedup).insertionSort (· ≤ ·)) ↔ Strong p i z n := by
    intro z
    rw [List.mem_insertionSort, List.mem_dedup, List.mem_map, strong_ins, ← mem_strongArcs hw, List.mem_map]
    constructor
    · rintro ⟨e, he, rfl⟩
      obtain ⟨he, hn⟩ := List.mem_filter.1 he
      obtain ⟨f, hf, rfl⟩ := List.mem_map.1 he
      have hn : f.1.2 = n := of_decide_eq_true hn
      exact ⟨f, hf, by rw [← hn]; rfl⟩
    · rintro ⟨f, hf, he⟩
      refine ⟨strongOut i f, List.mem_filter.2 ⟨List.mem_map_of_mem hf, ?_⟩, ?_⟩
      · simp [strongOut, he]
      · simp [strongOut, he]
  have hf : ∀ a b, freq i a b = count i.dfg (a, b) := fun _ _ => rfl
  constructor
  · unfold andOut
    simp only
    rw [List.mem_filter, List.mem_map, decide_eq_true_eq]
    constructor
    · rintro ⟨⟨q, hq, e⟩, hv⟩
      obtain ⟨rfl, rfl⟩ := Prod.mk.inj e
      obtain ⟨h1, h2, h3⟩ := (mem_laterPairs (sorted_dedup _) x y).1 hq
      refine ⟨(hout x).1 h1, (hout y).1 h2, h3, hv, ?_⟩
      simp only [hf]
      push_cast
      rfl
    · rintro ⟨h1, h2, h3, hv, e⟩
      refine ⟨⟨(x, y), (mem_laterPairs (sorted_dedup _) x y).2 ⟨(hout x).2 h1, (hout y).2 h2, h3⟩, ?_⟩, hv⟩
      simp only [hf, Prod.mk.injEq, true_and]
      push_cast
      exact e.symm
  · unfold andIn
    simp only
    rw [List.mem_filter, List.mem_map, decide_eq_true_eq]
    constructor
    · rintro ⟨⟨q, hq, e⟩, hv⟩
      obtain ⟨rfl, rfl⟩ := Prod.mk.inj e
      obtain ⟨h1, h2, h3⟩ := (mem_laterPairs (sorted_dedup _) x y).1 hq
      refine ⟨(hin x).1 h1, (hin y).1 h2, h3, hv, ?_⟩
      simp only [hf]
      push_cast
      rfl
    · rintro ⟨h1, h2, h3, hv, e⟩
      refine ⟨⟨(x, y), (mem_laterPairs (sorted_dedup _) x y).2 ⟨(hin x).2 h1, (hin y).2 h2, h3⟩, ?_⟩, hv⟩
      simp only [hf, Prod.mk.injEq, true_and]
      push_cast
      exact e.symm

/-- C77: the heuristics net of an event log: its connections are the strong ones and the loops, its nodes the activities with a connection; if there is
no connection, the activities of the log. -/
theorem C77_discover (p : Params) (noise : Rat) (log : List (List α)) :
    (∀ a b, (a, b) ∈ (discover p noise log).arcs ↔
      Strong p (inputOf noise log) a b ∨ Loop p (inputOf noise log) a b ∨ Loop p (inputOf noise log) b a) ∧
    (discover p noise log).nodes.Nodup ∧
    ((discover p noise log).arcs ≠ [] → ∀ x, x ∈ (discover p noise log).nodes ↔
      ∃ y, (x, y) ∈ (discover p noise log).arcs ∨ (y, x) ∈ (discover p noise log).arcs) ∧
    ((discover p noise log).arcs = [] → ∀ x, x ∈ (discover p noise log).nodes ↔ 0 < Dfg.occurrences x log) := by
  obtain ⟨hw, hocc, _⟩ := C77_input noise log
  obtain ⟨h1, h2⟩ := C77_nodes p (inputOf noise log) hw (keys (inputOf noise log).occ)
  refine ⟨fun a b => (C77_arcs p _ hw _ a b).1, ?_, fun h => (h1 h).2, fun h x => ?_⟩
  · by_cases h : (discover p noise log).arcs = []
    · unfold discover at h ⊢
      rw [h2 h]
      exact Counter.nodup_ofList _
    · exact (h1 h).1
  · unfold discover at h ⊢
    rw [h2 h, mem_keys_iff, Option.isSome_iff_exists]
    constructor
    · rintro ⟨n, hn⟩
      have := (hocc x n).1 hn
      omega
    · intro h0
      exact ⟨_, (hocc x _).2 ⟨rfl, by omega⟩⟩

end Verif
