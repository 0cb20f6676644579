import Verif.Batches.Theorems
/-
C70: refutation and examples.
-/
namespace Verif
open Batches

/-- the comparison of intervals with different bounds: by start, then by end -/
def Batches.keyLt (x y : Iv) : Bool := decide (x.st < y.st) || (decide (x.st = y.st) && decide (x.et < y.et))

/-- stable sorting by insertion -/
def Batches.ins (x : Iv) : List Iv → List Iv
  | [] => [x]
  | y :: l => if keyLt y x then y :: ins x l else x :: y :: l

def Batches.isort (l : List Iv) : List Iv := l.foldr ins []

/-- a possible library: lists that are heaps already are left as they are -/
def Batches.lib : Ops := ⟨keyLt, id, isort⟩

theorem Batches.ins_perm (x : Iv) : ∀ l, (ins x l).Perm (x :: l)
  | [] => .refl _
  | y :: l => by
    rw [ins]
    split
    · exact ((ins_perm x l).cons y).trans (.swap _ _ _)
    · exact .refl _

theorem Batches.lib_ok : lib.OK := by
  refine ⟨fun _ => .refl _, fun l => ?_⟩
  show (l.foldr ins []).Perm l
  induction l with
  | nil => exact .refl _
  | cons x l ih => exact (ins_perm x _).trans (ih.cons x)

/-- four executions by one resource: the second and the third are 99 seconds apart, the last one starts 11 hours later -/
def Batches.exEvents : List Ev := [⟨0, 1, "c1", 1⟩, ⟨10000, 10001, "c2", 2⟩, ⟨10100, 10101, "c3", 3⟩, ⟨50000, 50001, "c4", 4⟩]

/-- **C70 (refuted)**: executions that are far apart are not kept apart.  Of the four executions only the second and the third are within the
merge distance of 15 minutes, but the reported batch also contains the last one, which starts 11 hours later: `heappush` puts the merged
interval behind a later one, and the (negative) distance from there back to the merged interval is taken to be small. -/
theorem C70_far_refuted : (detectSingle lib 900 2 exEvents).map (fun b => (b.1, b.2.st, b.2.et, b.2.evs.map Ev.case)) =
    [(.concBatching, 10000, 50001, ["c4", "c2", "c3"])] := by
  have h : intervals lib 900 exEvents = [⟨0, 1, [⟨0, 1, "c1", 1⟩]⟩,
      ⟨10000, 50001, [⟨50000, 50001, "c4", 4⟩, ⟨10000, 10001, "c2", 2⟩, ⟨10100, 10101, "c3", 3⟩]⟩] := by decide
  have ht := C70_types ⟨10000, 50001, [⟨50000, 50001, "c4", 4⟩, ⟨10000, 10001, "c2", 2⟩, ⟨10100, 10101, "c3", 3⟩]⟩
  have h1 : batchType ⟨10000, 50001, [⟨50000, 50001, "c4", 4⟩, ⟨10000, 10001, "c2", 2⟩, ⟨10100, 10101, "c3", 3⟩]⟩ = .concBatching := by
    obtain ⟨t1, t2, t3, t4⟩ := ht
    have n1 := mt t1.1 (by decide)
    have n2 := mt t2.1 (by decide)
    have n3 := mt t3.1 (by decide)
    have n4 := mt t4.1 (by
      rintro ⟨_, _, l, hp, hs, hq⟩
      have hl := hp.length_eq
      simp only [List.length_cons, List.length_nil, Nat.zero_add] at hl
      have hm0 := hp.mem_iff.1 (List.getElem_mem (l := l) (n := 0) (by omega))
      have hm1 := hp.mem_iff.1 (List.getElem_mem (l := l) (n := 1) (by omega))
      have := hq 0 (by omega)
      simp only [Nat.zero_add] at this
      simp only [List.mem_cons, List.not_mem_nil, or_false] at hm0 hm1
      rcases hm0 with e0 | e0 | e0 <;> rcases hm1 with e1 | e1 | e1 <;> rw [e0, e1] at this <;> simp at this)
    revert n1 n2 n3 n4
    cases batchType ⟨10000, 50001, [⟨50000, 50001, "c4", 4⟩, ⟨10000, 10001, "c2", 2⟩, ⟨10100, 10101, "c3", 3⟩]⟩ <;> simp
  unfold detectSingle
  rw [h]
  simp [h1]

/-- three executions that are 14 hours apart from each other, listed in the order of the cases; the list is a heap, so `heapify` keeps it -/
def Batches.exEvents2 : List Ev := [⟨0, 1, "c1", 1⟩, ⟨100000, 100001, "c2", 2⟩, ⟨50000, 50001, "c3", 3⟩]

/-- **C70 (refuted, 2)**: `heapify` does not sort: the second execution is compared with an earlier one as its successor and the two are
reported as a batch although 14 hours lie between them. -/
theorem C70_unsorted_refuted : (detectSingle lib 900 2 exEvents2).map (fun b => (b.2.st, b.2.et, b.2.evs.map Ev.case)) =
    [(50000, 100001, ["c2", "c3"])] := by
  have h : intervals lib 900 exEvents2 = [⟨0, 1, [⟨0, 1, "c1", 1⟩]⟩,
      ⟨50000, 100001, [⟨100000, 100001, "c2", 2⟩, ⟨50000, 50001, "c3", 3⟩]⟩] := by decide
  unfold detectSingle
  rw [h]
  simp

/-- the theorems apply: the second and the third execution are together -/
theorem C70_case : ∃ v ∈ intervals lib 900 exEvents, (⟨10000, 10001, "c2", 2⟩ : Ev) ∈ v.evs ∧ (⟨10100, 10101, "c3", 3⟩ : Ev) ∈ v.evs :=
  C70_close_together lib_ok (by decide) (by decide) (by decide) (by decide) (by decide) ⟨by decide, by decide⟩

end Verif
