import Verif.Align.AStarTheorems
/-
C38: concrete instances of the hypotheses of the theorems, with solutions of the linear programmes in closed form, and a
search that ends with an exception.
-/
set_option linter.unusedSectionVars false
namespace Verif
open Dict Align

/-- a tuple with the least `f`; among these the last one of the list -/
def apopMin {S T : Type} : List (ATup S T) → Option (ATup S T × List (ATup S T))
  | [] => none
  | x :: l =>
    match apopMin l with
    | none => some (x, [])
    | some (y, rest) => if y.f < x.f then some (y, x :: rest) else some (x, y :: rest)

theorem apopMin_spec {S T : Type} (l : List (ATup S T)) (hl : l ≠ []) :
    ∃ x rest, apopMin l = some (x, rest) ∧ l.Perm (x :: rest) ∧ ∀ y ∈ rest, x.f ≤ y.f := by
  induction l with
  | nil => exact absurd rfl hl
  | cons x l ih =>
    cases l with
    | nil => exact ⟨x, [], rfl, List.Perm.refl _, by simp⟩
    | cons y l =>
      obtain ⟨z, rest, h1, h2, h3⟩ := ih (by simp)
      rw [apopMin, h1]
      simp only
      by_cases hlt : z.f < x.f
      · rw [if_pos hlt]
        refine ⟨z, x :: rest, rfl, (h2.cons x).trans (List.Perm.swap _ _ _), ?_⟩
        intro w hw
        rcases List.mem_cons.1 hw with rfl | hw
        · exact hlt.le
        · exact h3 w hw
      · rw [if_neg hlt]
        refine ⟨x, z :: rest, rfl, h2.cons x, ?_⟩
        intro w hw
        rcases List.mem_cons.1 hw with rfl | hw
        · exact not_lt.1 hlt
        · exact (not_lt.1 hlt).trans (h3 w hw)

def exASched (S T : Type) : ASched S T := ⟨fun _ l => apopMin l, fun _ l => l⟩

theorem exASched_ok (S T : Type) : (exASched S T).Ok where
  pop_nil _ := rfl
  pop_cons _ l h := apopMin_spec l h
  ord_perm _ _ := List.Perm.refl _

theorem encode_length {P T : Type} [DecidableEq P] (net : Net P T) (m : Marking P) :
    (Incidence.encode net m).length = net.places.length := by
  unfold Incidence.encode
  have : ∀ (l : Marking P) (acc : List Int),
      (l.foldl (fun x e => x.set (net.places.idxOf e.1) e.2) acc).length = acc.length := by
    intro l; induction l with
    | nil => simp
    | cons a l ih => intro acc; rw [List.foldl_cons, ih]; simp
  rw [this]; simp

/-- cost and alignment of a finished search -/
def Align.ASt.result {S T : Type} : ASt S T → Option (Int × List T)
  | .found x => some (x.g, x.alignment)
  | _ => none

/-! ### One activity `a` -/

/-- `p0 → a → p1` -/
def exA1 : LNet Nat Nat String where
  places := [0, 1]
  transitions := [0]
  inArcs _ := [(0, 1)]
  outArcs _ := [(1, 1)]
  label _ := some "a"

/-- as many synchronous moves as possible -/
def exSol1 (m0 q0 : Int) : Move Nat Nat → Rat
  | .left _ => (m0 - min m0 q0 : Int)
  | .right _ => (q0 - min m0 q0 : Int)
  | .sync _ _ => (min m0 q0 : Int)

/-- the solutions of the programmes of `⟨a⟩` and `exA1`: with `m0` and `q0` tokens to move, as many synchronous moves as
possible -/
def exLp1 (m : Marking (Nat ⊕ Nat)) : Rat × (Move Nat Nat → Rat) :=
  match Incidence.encode (product (traceNet ["a"]) exA1).toNet m with
  | [m0, m1, q0, q1] =>
    if m0 + m1 = 1 ∧ q0 + q1 = 1 ∧ 0 ≤ m0 ∧ 0 ≤ q0 then
      (((10000 * (m0 + q0 - 2 * min m0 q0) : Int) : Rat), exSol1 m0 q0)
    else (maxSize, fun _ => 0)
  | _ => (maxSize, fun _ => 0)

theorem gap_int (z : Int) (k : Nat) (h : -(1/1000 : Rat) ≤ (z : Rat) - k) : 0 ≤ (z : Rat) - k := by
  have h1 : (-1 : Rat) < ((z - k : Int) : Rat) := by push_cast; linarith
  have h2 : (-1 : Int) < z - k := by exact_mod_cast h1
  have h3 : (0 : Int) ≤ z - k := by omega
  have : (0 : Rat) ≤ ((z - k : Int) : Rat) := by exact_mod_cast h3
  push_cast at this; exact this

theorem exLp1_equation (m : Marking (Nat ⊕ Nat)) (m0 m1 q0 q1 : Int)
    (h : Incidence.encode (product (traceNet ["a"]) exA1).toNet m = [m0, m1, q0, q1]) (x : Move Nat Nat → Rat) :
    markingEquation (product (traceNet ["a"]) exA1).toNet (productMarking (traceFm ["a"]) [(1, 1)]) m x ↔
      x (.left 0) + x (.sync 0 0) = m0 ∧ x (.left 0) + x (.sync 0 0) = 1 - m1 ∧
      x (.right 0) + x (.sync 0 0) = q0 ∧ x (.right 0) + x (.sync 0 0) = 1 - q1 := by
  unfold markingEquation
  have h1 : Incidence.construct (product (traceNet ["a"]) exA1).toNet = [[-1, 0, -1], [1, 0, 1], [0, -1, -1], [0, 1, 1]] := by decide
  have h2 : (product (traceNet ["a"]) exA1).transitions = [.left 0, .right 0, .sync 0 0] := by decide
  have h3 : Incidence.encode (product (traceNet ["a"]) exA1).toNet (productMarking (traceFm ["a"]) [(1, 1)]) = [0, 1, 0, 1] := by decide
  rw [h1, h2, h3, h]
  simp
  constructor
  · rintro ⟨a, b, c, d⟩
    refine ⟨?_, ?_, ?_, ?_⟩ <;> linarith
  · rintro ⟨a, b, c, d⟩
    refine ⟨?_, ?_, ?_, ?_⟩ <;> linarith

theorem exLp1_ok : LpOk (defaultCost exA1) (product (traceNet ["a"]) exA1).transitions
    (markingEquation (product (traceNet ["a"]) exA1).toNet (productMarking (traceFm ["a"]) [(1, 1)])) exLp1 := by
  have h2 : (product (traceNet ["a"]) exA1).transitions = [.left 0, .right 0, .sync 0 0] := by decide
  have hlen : ∀ m, ∃ m0 m1 q0 q1, Incidence.encode (product (traceNet ["a"]) exA1).toNet m = [m0, m1, q0, q1] := by
    intro m
    have h : (Incidence.encode (product (traceNet ["a"]) exA1).toNet m).length = 4 := encode_length _ _
    match hh : Incidence.encode (product (traceNet ["a"]) exA1).toNet m, h with
    | [a, b, c, d], _ => exact ⟨a, b, c, d, rfl⟩
  have hdot : ∀ x, dotc (defaultCost exA1) [.left 0, .right 0, .sync 0 0] x = 10000 * x (.left 0) + 10000 * x (.right 0) := by
    intro x
    simp [dotc, defaultCost, productCost, exA1]
  have hnn : ∀ x : Move Nat Nat → Rat, NonNeg [.left 0, .right 0, .sync 0 0] x ↔
      0 ≤ x (.left 0) ∧ 0 ≤ x (.right 0) ∧ 0 ≤ x (.sync 0 0) := by
    intro x; simp [NonNeg]
  constructor
  · rintro m ⟨x, hx, hn⟩
    obtain ⟨m0, m1, q0, q1, he⟩ := hlen m
    rw [h2, hnn] at hn
    rw [exLp1_equation m m0 m1 q0 q1 he] at hx
    obtain ⟨a, b, c, d⟩ := hx
    obtain ⟨n1, n2, n3⟩ := hn
    have hif : m0 + m1 = 1 ∧ q0 + q1 = 1 ∧ 0 ≤ m0 ∧ 0 ≤ q0 := by
      have e1 : (m0 : Rat) + m1 = 1 := by linarith
      have e2 : (q0 : Rat) + q1 = 1 := by linarith
      have e3 : (0 : Rat) ≤ m0 := by linarith
      have e4 : (0 : Rat) ≤ q0 := by linarith
      exact ⟨by exact_mod_cast e1, by exact_mod_cast e2, by exact_mod_cast e3, by exact_mod_cast e4⟩
    have hlp : exLp1 m = (((10000 * (m0 + q0 - 2 * min m0 q0) : Int) : Rat), exSol1 m0 q0) := by
      unfold exLp1; rw [he]; simp only; rw [if_pos hif]
    rw [hlp, h2, hnn, exLp1_equation m m0 m1 q0 q1 he, hdot]
    simp only [exSol1]
    have c1 : (m0 : Rat) + m1 = 1 := by exact_mod_cast hif.1
    have c2 : (q0 : Rat) + q1 = 1 := by exact_mod_cast hif.2.1
    refine ⟨⟨?_, ?_, ?_, ?_⟩, ⟨?_, ?_, ?_⟩, ?_, ?_⟩
    · push_cast; ring
    · push_cast; linarith
    · push_cast; ring
    · push_cast; linarith
    · exact_mod_cast (by omega : (0 : Int) ≤ m0 - min m0 q0)
    · exact_mod_cast (by omega : (0 : Int) ≤ q0 - min m0 q0)
    · exact_mod_cast (by omega : (0 : Int) ≤ min m0 q0)
    · push_cast; ring
    · intro y hy hyn
      rw [exLp1_equation m m0 m1 q0 q1 he] at hy
      rw [hnn] at hyn
      rw [hdot]
      obtain ⟨y1, y2, y3, y4⟩ := hy
      rcases le_total m0 q0 with hle | hle
      · rw [min_eq_left hle]; push_cast; linarith [hyn.1, hyn.2.1]
      · rw [min_eq_right hle]; push_cast; linarith [hyn.1, hyn.2.1]
  · intro m hno
    obtain ⟨m0, m1, q0, q1, he⟩ := hlen m
    unfold exLp1; rw [he]; simp only
    rw [if_neg]
    intro hif
    apply hno
    have c1 : (m0 : Rat) + m1 = 1 := by exact_mod_cast hif.1
    have c2 : (q0 : Rat) + q1 = 1 := by exact_mod_cast hif.2.1
    have c3 : (0 : Rat) ≤ m0 := by exact_mod_cast hif.2.2.1
    have c4 : (0 : Rat) ≤ q0 := by exact_mod_cast hif.2.2.2
    refine ⟨fun | .left _ => m0 | .right _ => q0 | .sync _ _ => 0, ?_, ?_⟩
    · rw [exLp1_equation m m0 m1 q0 q1 he]
      simp only
      refine ⟨?_, ?_, ?_, ?_⟩ <;> linarith
    · rw [h2, hnn]; exact ⟨c3, c4, le_refl _⟩
  · intro m t _ k hk
    obtain ⟨m0, m1, q0, q1, he⟩ := hlen m
    have hint : ∃ z : Int, (exLp1 m).2 t = z := by
      unfold exLp1; rw [he]; simp only
      split
      · cases t <;> exact ⟨_, rfl⟩
      · exact ⟨0, rfl⟩
    obtain ⟨z, hz⟩ := hint
    rw [hz] at hk ⊢
    exact gap_int z k hk

theorem exA1_unit : Incidence.Unit exA1.toNet where
  places_nodup := by decide
  trans_nodup := by decide
  inOne := by decide
  outOne := by decide

/-- the hypotheses of `C38_trace_alignment` for `⟨a⟩` and `exA1`: the synchronous move is found -/
example : exA1.toNet.Simple ∧ (astarTrace ["a"] exA1 [(0, 1)] [(1, 1)] (defaultCost exA1) exLp1 (exASched _ _) 6).result =
    some (0, [.sync 0 0]) := by
  constructor
  · constructor <;> intro t <;> simp [exA1]
  · decide +kernel

example : ∀ ts : List (Move Nat Nat), IsAlignment ["a"] exA1 [(0, 1)] [(1, 1)] ts → 0 ≤ (ts.map (defaultCost exA1)).sum := by
  have hs : exA1.toNet.Simple := by constructor <;> intro t <;> simp [exA1]
  have hc : ∀ mv, 0 ≤ defaultCost exA1 mv := by intro mv; cases mv <;> simp [defaultCost, productCost, exA1]
  have g : ∀ i : Nat, Good [(i, (1 : Int))] := fun i => good_single i
  have hx : ∃ x, astarTrace ["a"] exA1 [(0, 1)] [(1, 1)] (defaultCost exA1) exLp1 (exASched _ _) 6 = .found x ∧ x.g = 0 := by
    have h : (astarTrace ["a"] exA1 [(0, 1)] [(1, 1)] (defaultCost exA1) exLp1 (exASched _ _) 6).result = some (0, [.sync 0 0]) := by
      decide +kernel
    cases hst : astarTrace ["a"] exA1 [(0, 1)] [(1, 1)] (defaultCost exA1) exLp1 (exASched _ _) 6 with
    | found x => rw [hst] at h; exact ⟨x, rfl, by simpa [ASt.result] using congrArg (·.map Prod.fst) h⟩
    | _ => rw [hst] at h; simp [ASt.result] at h
  obtain ⟨x, hx, h0⟩ := hx
  have := (C38_trace_alignment ["a"] exA1 hs exA1_unit [(0, 1)] [(1, 1)] (g 0) (g 1) (by decide) (by decide)
    (defaultCost exA1) hc exLp1 exLp1_ok (exASched _ _) (exASched_ok _ _) 6).1 x hx
  intro ts hts
  by_cases hle : (ts.map (defaultCost exA1)).sum ≤ 10 ^ 15
  · have := this.2.2 ts hts hle; omega
  · omega

/-! ### The exception -/

/-- `t1`, `t2` from `p0` to `p1`, `v` from `p1` to `p2` with a self-loop on the unmarked place `q` -/
def exAI : LNet Nat Nat String where
  places := [0, 1, 2, 3]
  transitions := [0, 1, 2]
  inArcs t := if t = 2 then [(1, 1), (3, 1)] else [(0, 1)]
  outArcs t := if t = 2 then [(2, 1), (3, 1)] else [(1, 1)]
  label t := if t = 0 then some "t1" else if t = 1 then some "t2" else some "v"

/-- all tokens of `p0` by `t1` -/
def exSolI (m0 m2 : Int) : Move Nat Nat → Rat
  | .right 0 => (m0 : Int)
  | .right 2 => (1 - m2 : Int)
  | _ => (0 : Int)

/-- solutions of the programmes of the empty trace and `exAI` -/
def exLpI (m : Marking (Nat ⊕ Nat)) : Rat × (Move Nat Nat → Rat) :=
  match Incidence.encode (product (traceNet ([] : List String)) exAI).toNet m with
  | [e, m0, m1, m2, mq] =>
    if e = 1 ∧ mq = 0 ∧ m0 + m1 + m2 = 1 ∧ 0 ≤ m0 ∧ m2 ≤ 1 then
      (((10000 * (m0 + 1 - m2) : Int) : Rat), exSolI m0 m2)
    else (maxSize, fun _ => 0)
  | _ => (maxSize, fun _ => 0)

theorem exLpI_equation (m : Marking (Nat ⊕ Nat)) (e m0 m1 m2 mq : Int)
    (h : Incidence.encode (product (traceNet ([] : List String)) exAI).toNet m = [e, m0, m1, m2, mq]) (x : Move Nat Nat → Rat) :
    markingEquation (product (traceNet ([] : List String)) exAI).toNet (productMarking (traceFm ([] : List String)) [(2, 1)]) m x ↔
      (e : Rat) = 1 ∧ x (.right 0) + x (.right 1) = m0 ∧ x (.right 2) - x (.right 0) - x (.right 1) = m1 ∧ x (.right 2) = 1 - m2 ∧
      (mq : Rat) = 0 := by
  unfold markingEquation
  have h1 : Incidence.construct (product (traceNet ([] : List String)) exAI).toNet =
    [[0, 0, 0], [-1, -1, 0], [1, 1, -1], [0, 0, 1], [0, 0, 0]] := by decide
  have h2 : (product (traceNet ([] : List String)) exAI).transitions = [.right 0, .right 1, .right 2] := by decide
  have h3 : Incidence.encode (product (traceNet ([] : List String)) exAI).toNet
    (productMarking (traceFm ([] : List String)) [(2, 1)]) = [1, 0, 0, 1, 0] := by decide
  rw [h1, h2, h3, h]
  simp
  constructor
  · rintro ⟨a, b, c, d, f⟩
    refine ⟨?_, ?_, ?_, ?_, ?_⟩
    · have : (e : Rat) = 1 := by linarith
      exact_mod_cast this
    · linarith
    · linarith
    · linarith
    · exact_mod_cast f
  · rintro ⟨a, b, c, d, f⟩
    refine ⟨?_, ?_, ?_, ?_, ?_⟩
    · have : (e : Rat) = 1 := by exact_mod_cast a
      linarith
    · linarith
    · linarith
    · linarith
    · exact_mod_cast f

theorem exSolI_int (m0 m2 : Int) (t : Move Nat Nat) : ∃ z : Int, exSolI m0 m2 t = z := by
  unfold exSolI; split <;> exact ⟨_, rfl⟩

theorem exLpI_ok : LpOk (defaultCost exAI) (product (traceNet ([] : List String)) exAI).transitions
    (markingEquation (product (traceNet ([] : List String)) exAI).toNet (productMarking (traceFm ([] : List String)) [(2, 1)]))
    exLpI := by
  have h2 : (product (traceNet ([] : List String)) exAI).transitions = [.right 0, .right 1, .right 2] := by decide
  have hlen : ∀ m, ∃ e m0 m1 m2 mq, Incidence.encode (product (traceNet ([] : List String)) exAI).toNet m = [e, m0, m1, m2, mq] := by
    intro m
    have h : (Incidence.encode (product (traceNet ([] : List String)) exAI).toNet m).length = 5 := encode_length _ _
    match hh : Incidence.encode (product (traceNet ([] : List String)) exAI).toNet m, h with
    | [a, b, c, d, e], _ => exact ⟨a, b, c, d, e, rfl⟩
  have hdot : ∀ x, dotc (defaultCost exAI) [.right 0, .right 1, .right 2] x =
      10000 * x (.right 0) + 10000 * x (.right 1) + 10000 * x (.right 2) := by
    intro x
    simp [dotc, defaultCost, productCost, exAI]; ring
  have hnn : ∀ x : Move Nat Nat → Rat, NonNeg [.right 0, .right 1, .right 2] x ↔
      0 ≤ x (.right 0) ∧ 0 ≤ x (.right 1) ∧ 0 ≤ x (.right 2) := by
    intro x; simp [NonNeg]
  constructor
  · rintro m ⟨x, hx, hn⟩
    obtain ⟨e, m0, m1, m2, mq, he⟩ := hlen m
    rw [h2, hnn] at hn
    rw [exLpI_equation m e m0 m1 m2 mq he] at hx
    obtain ⟨a, b, c, d, f⟩ := hx
    obtain ⟨n1, n2, n3⟩ := hn
    have hif : e = 1 ∧ mq = 0 ∧ m0 + m1 + m2 = 1 ∧ 0 ≤ m0 ∧ m2 ≤ 1 := by
      have e1 : (m0 : Rat) + m1 + m2 = 1 := by linarith
      have e3 : (0 : Rat) ≤ m0 := by linarith
      have e4 : (m2 : Rat) ≤ 1 := by linarith
      exact ⟨by exact_mod_cast a, by exact_mod_cast f, by exact_mod_cast e1, by exact_mod_cast e3, by exact_mod_cast e4⟩
    have hlp : exLpI m = (((10000 * (m0 + 1 - m2) : Int) : Rat), exSolI m0 m2) := by
      unfold exLpI; rw [he]; simp only; rw [if_pos hif]
    rw [hlp, h2, hnn, exLpI_equation m e m0 m1 m2 mq he, hdot]
    simp only [exSolI]
    have c1 : (m0 : Rat) + m1 + m2 = 1 := by exact_mod_cast hif.2.2.1
    refine ⟨⟨?_, ?_, ?_, ?_, ?_⟩, ⟨?_, ?_, ?_⟩, ?_, ?_⟩
    · exact a
    · push_cast; ring
    · push_cast; linarith
    · push_cast; linarith
    · exact f
    · exact_mod_cast hif.2.2.2.1
    · simp
    · exact_mod_cast (by omega : (0 : Int) ≤ 1 - m2)
    · push_cast; ring
    · intro y hy hyn
      rw [exLpI_equation m e m0 m1 m2 mq he] at hy
      rw [hdot]
      obtain ⟨y1, y2, y3, y4, y5⟩ := hy
      push_cast; linarith
  · intro m hno
    obtain ⟨e, m0, m1, m2, mq, he⟩ := hlen m
    unfold exLpI; rw [he]; simp only
    rw [if_neg]
    rintro ⟨i1, i2, i3, i4, i5⟩
    apply hno
    have c1 : (m0 : Rat) + m1 + m2 = 1 := by exact_mod_cast i3
    have c3 : (0 : Rat) ≤ m0 := by exact_mod_cast i4
    have c4 : (m2 : Rat) ≤ 1 := by exact_mod_cast i5
    refine ⟨fun | .right 0 => m0 | .right 2 => 1 - m2 | _ => 0, ?_, ?_⟩
    · rw [exLpI_equation m e m0 m1 m2 mq he]
      simp only
      refine ⟨by exact_mod_cast i1, by linarith, by linarith, trivial, by exact_mod_cast i2⟩
    · rw [h2, hnn]; exact ⟨c3, le_refl _, by simp only; linarith⟩
  · intro m t _ k hk
    obtain ⟨e, m0, m1, m2, mq, he⟩ := hlen m
    have hint : ∃ z : Int, (exLpI m).2 t = z := by
      unfold exLpI; rw [he]; simp only
      split
      · exact exSolI_int m0 m2 t
      · exact ⟨0, by simp⟩
    obtain ⟨z, hz⟩ := hint
    rw [hz] at hk ⊢
    exact gap_int z k hk

theorem exAI_simple : exAI.toNet.Simple := by
  constructor <;> intro t <;> by_cases h : t = 2 <;> simp [exAI, h]

/-- C38 (refuted): a search on a net without a complete run does not always answer `None`: `heappop` in the loop that
looks for a trusted tuple (AS:472-477) is applied to an empty list, an `IndexError`.  The net is bounded, has unit weights
and distinct labels; the trace is empty. -/
theorem C38_index_error_refuted :
    (∃ (lp : Marking (Nat ⊕ Nat) → Rat × (Move Nat Nat → Rat)) (sch : ASched (Marking (Nat ⊕ Nat)) (Move Nat Nat)) (n : Nat),
      LpOk (defaultCost exAI) (product (traceNet ([] : List String)) exAI).transitions
        (markingEquation (product (traceNet ([] : List String)) exAI).toNet (productMarking (traceFm ([] : List String)) [(2, 1)])) lp ∧
      sch.Ok ∧ exAI.toNet.Simple ∧ Incidence.Unit exAI.toNet ∧
      (∀ ts, ¬ CompleteRun exAI.toNet [(0, 1)] [(2, 1)] ts) ∧
      astarTrace [] exAI [(0, 1)] [(2, 1)] (defaultCost exAI) lp sch n = .indexError) := by
  refine ⟨exLpI, exASched _ _, 8, exLpI_ok, exASched_ok _ _, ?_, ?_, ?_, ?_⟩
  · exact exAI_simple
  · exact ⟨by decide, by decide, by decide, by decide⟩
  · rintro ts ⟨m, hm, hs⟩
    have hr := run_to_crun exAI.toNet exAI_simple ts _ _ (good_single 0).2 hm
    have key : ∀ (ts : List Nat) (f g : Nat → Int), f 3 = 0 → f 2 = 0 → CRun exAI.toNet f ts g → g 2 = 0 := by
      intro ts
      induction ts with
      | nil => intro f g _ h2 h; simp only [CRun] at h; rw [← h]; exact h2
      | cons t ts ih =>
        rintro f g h3 h2 ⟨ht, hen, h⟩
        have ht2 : t ≠ 2 := by
          rintro rfl
          have := hen 3
          rw [h3] at this
          exact absurd this (by decide)
        refine ih _ _ ?_ ?_ h
        · simp [exAI, ht2, h3, arcWeight]
        · simp [exAI, ht2, h2, arcWeight]
    have := key ts _ _ (by decide) (by decide) hr
    have h2 := hs 2
    rw [this] at h2
    exact absurd h2 (by decide)
  · have : (match astarTrace ([] : List String) exAI [(0, 1)] [(2, 1)] (defaultCost exAI) exLpI (exASched _ _) 8 with
      | .indexError => true | _ => false) = true := by decide +kernel
    split at this <;> simp_all
end Verif
