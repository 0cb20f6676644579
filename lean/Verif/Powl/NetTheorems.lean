import Verif.Powl.Spec
/-
Property theorems C48: POWL model → Petri net.
-/
namespace Verif
open Conv Sys Lang Dict PowlNet
variable {α : Type}

namespace Powl

mutual
/-- `validate_partial_orders` (obj.py:38-46): `true` if it does not raise -/
def validates : Powl α → Bool
  | .leaf _ => true
  | .xor cs => validatesL cs
  | .loop b r => validates b && validates r
  | .po cs E => BinRel.isStrictPartialOrder cs.length E && validatesL cs
def validatesL : List (Powl α) → Bool
  | [] => true
  | c :: cs => validates c && validatesL cs
end

mutual
/-- what the constructor of a choice demands (obj.py:301-303), and that no partial order is empty -/
def sizesOk : Powl α → Bool
  | .leaf _ => true
  | .xor cs => decide (2 ≤ cs.length) && sizesOkL cs
  | .loop b r => sizesOk b && sizesOk r
  | .po cs _ => !cs.isEmpty && sizesOkL cs
def sizesOkL : List (Powl α) → Bool
  | [] => true
  | c :: cs => sizesOk c && sizesOkL cs
end

mutual
/-- a model that passes `validate_partial_orders` has no cyclic order -/
theorem valid_of_validates : ∀ t : Powl α, validates t = true → sizesOk t = true → t.Valid
  | .leaf l, _, _ => .leaf l
  | .xor cs, h, h' => by
    simp only [sizesOk, Bool.and_eq_true, decide_eq_true_eq] at h'
    exact .xor cs h'.1 (valid_of_validatesL cs (by simpa [validates] using h) h'.2)
  | .loop b r, h, h' => by
    simp only [validates, sizesOk, Bool.and_eq_true] at h h'
    exact .loop b r (valid_of_validates b h.1 h'.1) (valid_of_validates r h.2 h'.2)
  | .po cs E, h, h' => by
    simp only [validates, sizesOk, Bool.and_eq_true, Bool.not_eq_true'] at h h'
    refine .po cs E (by rintro rfl; simp at h') (fun i hi => ?_) (valid_of_validatesL cs h.2 h'.2)
    exact ((C23_is_strict_partial_order _ _).1 h.1).1 i ((before_of_strict h.1 i i).1 hi)
theorem valid_of_validatesL : ∀ ts : List (Powl α), validatesL ts = true → sizesOkL ts = true → ∀ t ∈ ts, t.Valid
  | [], _, _ => by simp
  | t :: ts, h, h' => by
    simp only [validatesL, sizesOkL, Bool.and_eq_true] at h h'
    have := valid_of_validates t h.1 h'.1
    intro x hx
    rcases List.mem_cons.1 hx with rfl | hx
    · exact this
    · exact valid_of_validatesL ts h.2 h'.2 x hx
end

mutual
/-- labels of the visible leaves, from left to right -/
def labels : Powl α → List α
  | .leaf l => l.toList
  | .xor cs => labelsL cs
  | .loop b r => labels b ++ labels r
  | .po cs _ => labelsL cs
def labelsL : List (Powl α) → List α
  | [] => []
  | c :: cs => labels c ++ labelsL cs
end

end Powl

namespace PowlNet

theorem sub_trans (k : Nat → Nat → Cnt → Gr α × Cnt) (i : Ent) (f : Option Ent) (c : Cnt) :
    ∃ ip fp c', (sub k i f c).1.trans = (k ip fp c').1.trans := by
  cases i <;> rcases f with _ | f
  · exact ⟨_, _, _, rfl⟩
  · cases f <;> exact ⟨_, _, _, rfl⟩
  · exact ⟨_, _, _, rfl⟩
  · cases f <;> exact ⟨_, _, _, rfl⟩

theorem sub_vis {k : Nat → Nat → Cnt → Gr α × Cnt} {l : List α} (h : ∀ ip fp c, (k ip fp c).1.trans.filterMap Prod.snd = l)
    (i : Ent) (f : Option Ent) (c : Cnt) : (sub k i f c).1.trans.filterMap Prod.snd = l := by
  obtain ⟨_, _, _, e⟩ := sub_trans k i f c
  rw [e, h]

mutual
theorem body_vis : ∀ (t : Powl α) (ip fp : Nat) (c : Cnt), (body t ip fp c).1.trans.filterMap Prod.snd = t.labels
  | .leaf l, ip, fp, c => by cases l <;> simp [body, Powl.labels]
  | .xor cs, ip, fp, c => by rw [body, Powl.labels]; exact bodyXor_vis cs ip fp c
  | .loop b r, ip, fp, c => by
    rw [body, Powl.labels]
    simp only [Gr.append_trans, List.filterMap_append]
    rw [sub_vis (body_vis b), sub_vis (body_vis r), sub_vis (l := []) (by simp)]
    simp
  | .po cs E, ip, fp, c => by
    rw [body, Powl.labels]
    simp only [Gr.append_trans, List.filterMap_append]
    rw [bodyKids_vis cs, edges_eq]
    simp
theorem bodyXor_vis : ∀ (ts : List (Powl α)) (ip fp : Nat) (c : Cnt), (bodyXor ts ip fp c).1.trans.filterMap Prod.snd = Powl.labelsL ts
  | [], ip, fp, c => by simp [bodyXor, Powl.labelsL]
  | t :: ts, ip, fp, c => by
    rw [bodyXor, Powl.labelsL]
    simp only [Gr.append_trans, List.filterMap_append]
    rw [sub_vis (body_vis t), bodyXor_vis ts]
theorem bodyKids_vis : ∀ (ts : List (Powl α)) (st en : List Nat) (sp jn k : Nat) (c : Cnt),
    (bodyKids st en sp jn ts k c).1.trans.filterMap Prod.snd = Powl.labelsL ts
  | [], st, en, sp, jn, k, c => by simp [bodyKids, Powl.labelsL]
  | t :: ts, st, en, sp, jn, k, c => by
    rw [bodyKids, Powl.labelsL]
    simp only [Gr.append_trans, List.filterMap_append]
    rw [sub_vis (body_vis t), bodyKids_vis ts]
    split <;> split <;> simp
end

end PowlNet

/-- C48: the accepting net returned by the conversion of a POWL model accepts exactly the traces of the model: every trace of the
model is the label sequence of a firing sequence from the initial to the final marking, and vice versa — whatever order the sets
of transitions and places are iterated in.  The relation of a partial order need not be transitively closed, only acyclic. -/
theorem C48_language {ord : Gr α → List (Nat × Option α)} (hord : IterOrder ord) (ordP : List Nat → List Nat) (t : Powl α)
    (ht : t.Valid) (w : List α) : Accepts (PowlNet.apply ord ordP t) initialMarking finalMarking w ↔ t.lang w := by
  have h := (PowlNet.apply_reds hord.mem ordP ht).ready (PowlNet.build_ready ht)
  rw [accepts_run h.1 h.2.1, h.2.2.1]

/-- C48: in particular for every model that passes `validate_partial_orders`. -/
theorem C48_language_validated {ord : Gr α → List (Nat × Option α)} (hord : IterOrder ord) (ordP : List Nat → List Nat) (t : Powl α)
    (h : t.validates = true) (h' : t.sizesOk = true) (w : List α) :
    Accepts (PowlNet.apply ord ordP t) initialMarking finalMarking w ↔ t.lang w :=
  C48_language hord ordP t (Powl.valid_of_validates t h h') w

/-- C48: the converted net is sound.  From every reachable marking the final marking can be reached; a reachable marking with a
token in the sink is the final marking; no place ever holds more than one token; every transition can be fired. -/
theorem C48_sound {ord : Gr α → List (Nat × Option α)} (hord : IterOrder ord) (ordP : List Nat → List Nat) (t : Powl α)
    (ht : t.Valid) :
    let g := PowlNet.apply ord ordP t
    (∀ m, CanReach g initialMarking m → ∃ m', CanReach g m m' ∧ Marking.eq m' finalMarking = true) ∧
    (∀ m, CanReach g initialMarking m → 1 ≤ count m 1 → Marking.eq m finalMarking = true) ∧
    (∀ m, CanReach g initialMarking m → ∀ p, 0 ≤ count m p ∧ count m p ≤ 1) ∧
    (∀ tr ∈ g.toNet.transitions, ∃ m, CanReach g initialMarking m ∧ g.toNet.isEnabled tr m = true) := by
  have h := (PowlNet.apply_reds hord.mem ordP ht).ready (PowlNet.build_ready ht)
  exact sound_execute h.1 h.2.1

/-- C48: the converted net is a workflow net: the source has no incoming arc, the sink no outgoing arc, every other place has
both. -/
theorem C48_workflow_net {ord : Gr α → List (Nat × Option α)} (hord : IterOrder ord) (ordP : List Nat → List Nat) (t : Powl α)
    (ht : t.Valid) :
    let g := PowlNet.apply ord ordP t
    g.ppre 0 = [] ∧ g.ppost 1 = [] ∧ ∀ p ∈ g.places, (p ≠ 0 → g.ppre p ≠ []) ∧ (p ≠ 1 → g.ppost p ≠ []) := by
  have h := (PowlNet.apply_reds hord.mem ordP ht).ready (PowlNet.build_ready ht)
  exact h.2.2.2

theorem PowlNet.nodup_of_map {β γ : Type} {f : β → γ} {l : List β} (h : (l.map f).Nodup) : l.Nodup := by
  refine List.Pairwise.imp ?_ (List.pairwise_map.1 h)
  rintro a b h1 rfl; exact h1 rfl

/-- C48: the net has one visible transition for every visible leaf of the model. -/
theorem C48_visible {ord : Gr α → List (Nat × Option α)} (hord : IterOrder ord) (ordP : List Nat → List Nat) (t : Powl α)
    (ht : t.Valid) : ((PowlNet.apply ord ordP t).trans.filterMap Prod.snd).Perm t.labels := by
  have h := (PowlNet.apply_reds hord.mem ordP ht)
  have hr := h.ready (PowlNet.build_ready ht)
  have hb : (PowlNet.build t).trans.filterMap Prod.snd = t.labels := by
    simp only [PowlNet.build, Gr.append_trans, List.filterMap_append]
    rw [sub_vis (body_vis t)]; simp
  rw [← hb]
  have e : ∀ l : List (Nat × Option α), l.filterMap Prod.snd = (l.filter fun e => e.2.isSome).filterMap Prod.snd := by
    intro l
    induction l with
    | nil => rfl
    | cons x l ih => obtain ⟨n, o⟩ := x; cases o <;> simp [ih]
  rw [e (PowlNet.apply ord ordP t).trans, e (PowlNet.build t).trans]
  refine List.Perm.filterMap _ ?_
  have n1 : (PowlNet.apply ord ordP t).trans.Nodup := nodup_of_map hr.1.nodup
  have n2 : (PowlNet.build t).trans.Nodup := nodup_of_map (PowlNet.build_ready ht).inv.nodup
  refine (List.perm_ext_iff_of_nodup (n1.filter _) (n2.filter _)).2 fun x => ?_
  rw [List.mem_filter, List.mem_filter]
  constructor
  · rintro ⟨h1, h2⟩; exact ⟨h.sub.1 x h1, h2⟩
  · rintro ⟨h1, h2⟩
    exact ⟨h.sub.2.2 x h1 (by intro e; rw [e] at h2; cases h2), h2⟩

/-! ### concrete cases -/

/-- `PO=(nodes={ a, X ( b, tau ), * ( c, d ), e }, order={ a-->*, X-->*, X-->e })` -/
def exPowl : Powl String :=
  .po [.leaf (some "a"), .xor [.leaf (some "b"), .leaf none], .loop (.leaf (some "c")) (.leaf (some "d")), .leaf (some "e")]
    fun i j => (i == 0 && j == 2) || (i == 1 && j == 2) || (i == 1 && j == 3)

theorem exPowl_ok : exPowl.validates = true ∧ exPowl.sizesOk = true := by decide

example : Accepts (PowlNet.apply (fun g => g.trans) id exPowl) initialMarking finalMarking ["b", "e", "a", "c", "d", "c"] := by
  refine (C48_language_validated (fun _ => List.Perm.refl _) id exPowl exPowl_ok.1 exPowl_ok.2 _).2 ?_
  have hB := Powl.before_of_strict (n := 4) (E := fun i j => (i == 0 && j == 2) || (i == 1 && j == 2) || (i == 1 && j == 3)) (by decide)
  refine ⟨[(1, "b"), (3, "e"), (0, "a"), (2, "c"), (2, "d"), (2, "c")], rfl, by decide, ?_, ?_⟩
  · intro k L hL
    match k, hL with
    | 0, hL => cases hL; simp [Powl.lang, proj]
    | 1, hL =>
      cases hL
      rw [Powl.lang]; exact ⟨Powl.lang (.leaf (some "b")), by simp [Powl.langs], by simp [Powl.lang, proj]⟩
    | 2, hL =>
      cases hL
      rw [Powl.lang]
      exact loopL.again (d := ["c"]) (r := ["d"]) (w := ["c"]) (Powl.lang (.leaf (some "d"))) (by simp [Powl.lang]) (by simp) (by simp [Powl.lang])
        (loopL.exit (by simp [Powl.lang]))
    | 3, hL => cases hL; simp [Powl.lang, proj]
    | n + 4, hL => simp [Powl.langs] at hL
  · intro i j h
    have h := (hB i j).1 h
    have key : ∀ i < 4, ∀ j < 4, ((i == 0 && j == 2) || (i == 1 && j == 2) || (i == 1 && j == 3)) = true →
        [(1, "b"), (3, "e"), (0, "a"), (2, "c"), (2, "d"), (2, "c")].Pairwise fun e f => ¬ (e.1 = j ∧ f.1 = i) := by decide
    exact key i h.1 j h.2.1 h.2.2

/-- an order that is not transitively closed, as `StrictPartialOrder.simplify` can produce it -/
example : (Powl.po [.leaf (some "a"), .leaf (some "b"), .leaf (some "c")] fun i j => (i == 0 && j == 1) || (i == 1 && j == 2) : Powl String).Valid := by
  refine .po _ _ (by simp) ?_ ?_
  · intro i h
    have key : ∀ {i j : Nat}, Powl.Before 3 (fun i j => (i == 0 && j == 1) || (i == 1 && j == 2)) i j → i < j := by
      intro i j h
      induction h with
      | single h => obtain ⟨_, _, h⟩ := h; simp at h; omega
      | tail _ h ih => obtain ⟨_, _, h⟩ := h; simp at h; omega
    exact Nat.lt_irrefl _ (key h)
  · intro c hc
    simp only [List.mem_cons, List.not_mem_nil, or_false] at hc
    rcases hc with rfl | rfl | rfl <;> exact .leaf _

/-- C48 needs partial orders with at least one child: the net of `StrictPartialOrder([])` is not sound, two tokens reach the sink. -/
theorem C48_empty_order_refuted : ∃ m, CanReach (PowlNet.apply (fun g => g.trans) id (.po [] fun _ _ => false : Powl String)) initialMarking m ∧
    count m 1 = 2 := by
  refine ⟨[(0, 1), (1, 2)], ⟨[3, 3], by unfold Exec; decide⟩, by decide⟩

end Verif
