import Verif.Petri.Proofs
/-
C04: incidence matrix, /repo/pm4py/objects/petri_net/utils/incidence_matrix.py.
-/
namespace Verif
open Dict
namespace Incidence
variable {P T : Type} [DecidableEq P] [DecidableEq T]

/-! ### Model -/

/-- sources of `p.in_arcs`: one entry per arc `t → p`.  Python stores each arc both at the place and at the
transition (petri_utils.py `add_arc_from_to`); the model derives the place side from the transition side. -/
def placeIn (net : Net P T) (p : P) : List T :=
  net.transitions.flatMap fun t => ((net.outArcs t).filter fun a => decide (a.1 = p)).map fun _ => t

/-- targets of `p.out_arcs` -/
def placeOut (net : Net P T) (p : P) : List T :=
  net.transitions.flatMap fun t => ((net.inArcs t).filter fun a => decide (a.1 = p)).map fun _ => t

/-- `a_matrix[i][j] += d` -/
def bump (d : Int) (i : Nat) (A : List (List Int)) (j : Nat) : List (List Int) :=
  A.modify i fun row => row.modify j (· + d)

/-- `__construct_matrix` (incidence_matrix.py:37-53).  `net.places` / `net.transitions` stand for the sorted
lists of lines 40-41; the dictionaries of lines 43-46 are the positions in these lists. -/
def construct (net : Net P T) : List (List Int) :=
  let A0 := net.places.map fun _ => net.transitions.map fun _ => (0 : Int)
  net.places.foldl (fun A p =>
    let i := net.places.idxOf p
    let A1 := (placeIn net p).foldl (fun A t => bump 1 i A (net.transitions.idxOf t)) A
    (placeOut net p).foldl (fun A t => bump (-1) i A (net.transitions.idxOf t)) A1) A0

/-- `encode_marking` (incidence_matrix.py:22-26). -/
def encode (net : Net P T) (m : Marking P) : List Int :=
  m.foldl (fun x e => x.set (net.places.idxOf e.1) e.2) (net.places.map fun _ => (0 : Int))

/-! ### Specification -/

/-- number of occurrences of each transition in a firing sequence, in the column order of the matrix -/
def parikh (net : Net P T) (ts : List T) : List Int := net.transitions.map fun t => (ts.count t : Int)

/-- scalar product -/
def dot (u v : List Int) : Int := (List.zipWith (· * ·) u v).sum

/-- all arcs have weight 1 and connect places of the net -/
structure Unit (net : Net P T) : Prop where
  places_nodup : net.places.Nodup
  trans_nodup : net.transitions.Nodup
  inOne : ∀ t ∈ net.transitions, ∀ a ∈ net.inArcs t, a.2 = 1 ∧ a.1 ∈ net.places
  outOne : ∀ t ∈ net.transitions, ∀ a ∈ net.outArcs t, a.2 = 1 ∧ a.1 ∈ net.places

/-! ### Proofs -/

theorem row_fold (ts l : List T) (d : Int) (row : List Int) (j : Nat) :
    (l.foldl (fun r t => r.modify (ts.idxOf t) (· + d)) row)[j]? =
      row[j]?.map (· + d * (l.countP fun t => ts.idxOf t == j)) := by
  induction l generalizing row with
  | nil => cases h : row[j]? <;> simp [h]
  | cons t l ih =>
    simp only [List.foldl_cons, ih, List.getElem?_modify, List.countP_cons]
    cases h : row[j]? with
    | none => simp
    | some v =>
      by_cases ht : ts.idxOf t = j
      · simp [ht]; rw [Int.mul_add]; omega
      · simp [ht]

theorem bump_fold (ts l : List T) (d : Int) (i : Nat) (A : List (List Int)) :
    l.foldl (fun A t => bump d i A (ts.idxOf t)) A =
      A.modify i (fun row => l.foldl (fun r t => r.modify (ts.idxOf t) (· + d)) row) := by
  induction l generalizing A with
  | nil =>
    simp only [List.foldl_nil]
    apply List.ext_getElem?
    intro k
    rw [List.getElem?_modify]; split <;> simp
  | cons t l ih =>
    rw [List.foldl_cons, ih]
    unfold bump
    apply List.ext_getElem?
    intro k
    simp only [List.getElem?_modify]
    by_cases hk : i = k
    · simp only [hk, if_true]; cases A[k]? <;> rfl
    · simp [hk]

theorem count_replicate_filter (net : Net P T) (f : T → List (P × Int)) (p : P) (t : T)
    (hn : net.transitions.Nodup) (ht : t ∈ net.transitions) :
    (net.transitions.flatMap fun t => ((f t).filter fun a => decide (a.1 = p)).map fun _ => t).countP
      (fun s => net.transitions.idxOf s == net.transitions.idxOf t) = ((f t).filter fun a => decide (a.1 = p)).length := by
  have hinj : ∀ s ∈ net.transitions, (net.transitions.idxOf s == net.transitions.idxOf t) = decide (s = t) := by
    intro s hs
    by_cases h : s = t
    · simp [h]
    · simp only [h, decide_false, beq_eq_false_iff_ne, ne_eq]
      intro he
      have h1 := List.getElem_idxOf (xs := net.transitions) (List.idxOf_lt_length_iff.2 hs)
      have h2 := List.getElem_idxOf (xs := net.transitions) (List.idxOf_lt_length_iff.2 ht)
      apply h; rw [← h1, ← h2]; congr 1
  have key : ∀ ts : List T, ts.Nodup → (∀ s ∈ ts, (net.transitions.idxOf s == net.transitions.idxOf t) = decide (s = t)) →
      (ts.flatMap fun t => ((f t).filter fun a => decide (a.1 = p)).map fun _ => t).countP
      (fun s => net.transitions.idxOf s == net.transitions.idxOf t) =
        if t ∈ ts then ((f t).filter fun a => decide (a.1 = p)).length else 0 := by
    intro ts
    induction ts with
    | nil => simp
    | cons s ts ih =>
      intro hnd hi
      simp only [List.nodup_cons] at hnd
      simp only [List.flatMap_cons, List.countP_append]
      rw [ih hnd.2 (fun s hs => hi s (by simp [hs]))]
      have hs := hi s (by simp)
      by_cases h : s = t
      · subst h
        simp only [hnd.1, if_false, List.mem_cons, true_or, if_true]
        rw [List.countP_eq_length.2]
        · simp
        · intro a ha
          obtain ⟨_, _, rfl⟩ := List.mem_map.1 ha
          simp
      · have h0 : ((((f s).filter fun a => decide (a.1 = p)).map fun _ => s).countP
            (fun s => net.transitions.idxOf s == net.transitions.idxOf t)) = 0 := by
          rw [List.countP_eq_zero]
          intro a ha
          obtain ⟨_, _, rfl⟩ := List.mem_map.1 ha
          rw [hs]; simp [h]
        rw [h0]
        have : t ≠ s := fun h' => h h'.symm
        simp [this]
  rw [key _ hn hinj, if_pos ht]

theorem arcWeight_unit (as : List (P × Int)) (h : ∀ a ∈ as, a.2 = 1) (p : P) :
    arcWeight as p = ((as.filter fun a => decide (a.1 = p)).length : Int) := by
  induction as with
  | nil => simp
  | cons a as ih =>
    rw [arcWeight_cons, ih (fun b hb => h b (by simp [hb]))]
    have := h a (by simp)
    by_cases hp : a.1 = p
    · simp [hp]; omega
    · simp [hp]

/-- entry of the constructed matrix -/
theorem construct_eq (net : Net P T) (hu : Unit net) :
    construct net = net.places.map fun p => net.transitions.map fun t =>
      arcWeight (net.outArcs t) p - arcWeight (net.inArcs t) p := by
  -- effect of the loop body on row `i`
  let rowOf (p : P) (row : List Int) : List Int :=
    (placeOut net p).foldl (fun r t => r.modify (net.transitions.idxOf t) (· + (-1)))
      ((placeIn net p).foldl (fun r t => r.modify (net.transitions.idxOf t) (· + 1)) row)
  have hbody : construct net = net.places.foldl (fun A p => A.modify (net.places.idxOf p) (rowOf p))
      (net.places.map fun _ => net.transitions.map fun _ => (0 : Int)) := by
    unfold construct
    simp only
    congr 1
    funext A p
    simp only [bump_fold]
    apply List.ext_getElem?
    intro k
    simp only [List.getElem?_modify, rowOf]
    by_cases hk : net.places.idxOf p = k
    · subst hk
      simp only [if_true]
      cases A[net.places.idxOf p]? <;> rfl
    · simp [hk]
  rw [hbody]
  have hloop : ∀ (ps : List P) (A : List (List Int)), ps.Nodup → (∀ p ∈ ps, p ∈ net.places) → ∀ k : Nat,
      (ps.foldl (fun A p => A.modify (net.places.idxOf p) (rowOf p)) A)[k]? =
        A[k]?.map (fun row => match net.places[k]? with
          | some p => if p ∈ ps then rowOf p row else row
          | none => row) := by
    intro ps
    induction ps with
    | nil =>
      intro A _ _ k
      simp only [List.foldl_nil, List.not_mem_nil, if_false]
      cases A[k]? <;> cases net.places[k]? <;> simp
    | cons q ps ih =>
      intro A hn hsub k
      simp only [List.nodup_cons] at hn
      simp only [List.foldl_cons]
      rw [ih _ hn.2 (fun p hp => hsub p (by simp [hp])), List.getElem?_modify]
      have hq := hsub q (by simp)
      by_cases hk : net.places.idxOf q = k
      · have hpk : net.places[k]? = some q := by
          rw [← hk, List.getElem?_eq_getElem (List.idxOf_lt_length_iff.2 hq), List.getElem_idxOf]
        simp only [hk, if_true, hpk, hn.1, if_false, List.mem_cons, true_or]
        cases A[k]? <;> simp
      · simp only [hk, if_false]
        cases hpk : net.places[k]? with
        | none => simp
        | some p =>
          have hne : p ≠ q := by
            rintro rfl
            apply hk
            obtain ⟨hlt, he⟩ := List.getElem?_eq_some_iff.1 hpk
            rw [← he]
            exact List.Nodup.idxOf_getElem hu.places_nodup k hlt
          simp [hne]
  apply List.ext_getElem?
  intro k
  rw [hloop _ _ hu.places_nodup (fun p hp => hp) k]
  simp only [List.getElem?_map]
  cases hpk : net.places[k]? with
  | none => simp
  | some p =>
    have hp : p ∈ net.places := List.mem_of_getElem? hpk
    simp only [Option.map_some, hp, if_true, Option.some.injEq]
    apply List.ext_getElem?
    intro j
    simp only [rowOf, row_fold, List.getElem?_map]
    cases htj : net.transitions[j]? with
    | none => simp
    | some t =>
      have ht : t ∈ net.transitions := List.mem_of_getElem? htj
      have hj : net.transitions.idxOf t = j := by
        obtain ⟨hlt, he⟩ := List.getElem?_eq_some_iff.1 htj
        rw [← he]
        exact List.Nodup.idxOf_getElem hu.trans_nodup j hlt
      have h1 := count_replicate_filter net net.outArcs p t hu.trans_nodup ht
      have h2 := count_replicate_filter net net.inArcs p t hu.trans_nodup ht
      rw [hj] at h1 h2
      simp only [Option.map_some, Option.some.injEq, placeIn, placeOut, h1, h2]
      rw [arcWeight_unit _ (fun a ha => (hu.outOne t ht a ha).1), arcWeight_unit _ (fun a ha => (hu.inOne t ht a ha).1)]
      omega

theorem encode_eq (net : Net P T) (hn : net.places.Nodup) (m : Marking P) (hm : (keys m).Nodup)
    (hk : ∀ p ∈ keys m, p ∈ net.places) : encode net m = net.places.map (count m) := by
  have : ∀ (m : Marking P) (x : List Int), (keys m).Nodup → (∀ p ∈ keys m, p ∈ net.places) →
      x.length = net.places.length → ∀ k : Nat,
      (m.foldl (fun x e => x.set (net.places.idxOf e.1) e.2) x)[k]? =
        match net.places[k]? with
          | some p => if p ∈ keys m then some (count m p) else x[k]?
          | none => none := by
    intro m
    induction m with
    | nil =>
      intro x _ _ hl k
      simp only [List.foldl_nil]
      cases h : net.places[k]? with
      | none =>
        simp only [List.getElem?_eq_none_iff] at h ⊢
        omega
      | some p => simp
    | cons e m ih =>
      intro x hnd hsub hl k
      obtain ⟨q, v⟩ := e
      simp only [keys, List.map_cons, List.nodup_cons] at hnd
      simp only [List.foldl_cons]
      rw [ih _ hnd.2 (fun p hp => hsub p (by simp [keys] at hp ⊢; exact .inr hp)) (by simpa using hl)]
      have hq := hsub q (by simp [keys])
      cases hpk : net.places[k]? with
      | none => rfl
      | some p =>
        obtain ⟨hlt, he⟩ := List.getElem?_eq_some_iff.1 hpk
        have hidx : net.places.idxOf p = k := by
          rw [← he]; exact List.Nodup.idxOf_getElem hn k hlt
        simp only [List.getElem?_set]
        by_cases hpq : q = p
        · subst hpq
          have h1 : q ∉ keys m := hnd.1
          simp only [h1, if_false, hidx]
          simp [keys, count, get?_cons]; omega
        · have h3 : net.places.idxOf q ≠ k := by
            intro h
            apply hpq
            have := List.getElem_idxOf (xs := net.places) (List.idxOf_lt_length_iff.2 hq)
            rw [← he, ← this]; congr 1
          simp only [h3, if_false]
          have h2 : (p ∈ keys ((q, v) :: m)) ↔ p ∈ keys m := by
            simp [keys]; rintro rfl; exact absurd rfl hpq
          simp only [h2, count, get?_cons, hpq, if_false]
  apply List.ext_getElem?
  intro k
  unfold encode
  rw [this m _ hm hk (by simp), List.getElem?_map, List.getElem?_map]
  cases hpk : net.places[k]? with
  | none => rfl
  | some p =>
    simp only [Option.map_some, List.getElem?_map, hpk]
    split
    · rfl
    · rename_i h
      rw [mem_keys_iff] at h
      simp at h
      simp [count, h]

theorem dot_map (ts : List T) (f g : T → Int) : dot (ts.map f) (ts.map g) = (ts.map fun t => f t * g t).sum := by
  unfold dot
  induction ts with
  | nil => rfl
  | cons t ts ih => simp [ih]

theorem sum_add (ts : List T) (f g : T → Int) :
    (ts.map fun t => f t + g t).sum = (ts.map f).sum + (ts.map g).sum := by
  induction ts with
  | nil => rfl
  | cons t ts ih => simp [ih]; omega

theorem sum_indicator (ts : List T) (hn : ts.Nodup) (t : T) (ht : t ∈ ts) (f : T → Int) :
    (ts.map fun s => f s * (if s = t then 1 else 0)).sum = f t := by
  induction ts with
  | nil => cases ht
  | cons s ts ih =>
    simp only [List.nodup_cons] at hn
    simp only [List.map_cons, List.sum_cons]
    by_cases h : s = t
    · subst h
      have : (ts.map fun s' => f s' * (if s' = s then 1 else 0)).sum = 0 := by
        have : (ts.map fun s' => f s' * (if s' = s then 1 else 0)) = ts.map fun _ => (0 : Int) := by
          apply List.map_congr_left
          intro a ha
          have : a ≠ s := fun h => hn.1 (h ▸ ha)
          simp [this]
        rw [this]
        simp [List.map_const', List.sum_replicate_int]
      rw [this]; simp
    · cases ht with
      | head => exact absurd rfl h
      | tail _ ht => rw [ih hn.2 ht]; simp [h]

theorem parikh_cons_dot (net : Net P T) (hn : net.transitions.Nodup) (t : T) (ht : t ∈ net.transitions)
    (ts : List T) (f : T → Int) :
    dot (net.transitions.map f) (parikh net (t :: ts)) = f t + dot (net.transitions.map f) (parikh net ts) := by
  unfold parikh
  rw [dot_map, dot_map, ← sum_indicator net.transitions hn t ht f, ← sum_add]
  congr 1
  apply List.map_congr_left
  intro s _
  rw [List.count_cons]
  by_cases h : s = t
  · subst h; simp; rw [Int.mul_add]; omega
  · have : ¬ t = s := fun h' => h h'.symm
    simp [h, this]

theorem parikh_nil_dot (net : Net P T) (f : T → Int) : dot (net.transitions.map f) (parikh net []) = 0 := by
  unfold parikh
  rw [dot_map]
  induction net.transitions with
  | nil => rfl
  | cons t ts ih => simpa using ih

theorem state_equation_count (net : Net P T) (hu : Unit net) (ts : List T) (m m' : Marking P)
    (h : ts.foldlM (fun m t => net.execute t m) m = some m') (p : P) :
    count m' p = count m p + dot (net.transitions.map fun t => arcWeight (net.outArcs t) p - arcWeight (net.inArcs t) p)
      (parikh net ts) := by
  induction ts generalizing m with
  | nil => simp at h; subst h; rw [parikh_nil_dot]; omega
  | cons t ts ih =>
    simp only [List.foldlM_cons, Option.bind_eq_bind, Option.bind_eq_some_iff] at h
    obtain ⟨m1, h1, h2⟩ := h
    have ht : t ∈ net.transitions := ((Net.isEnabled_iff _ _ _).1 ((Net.execute_some_iff _ _ _ _).1 h1).1).1
    rw [ih m1 h2, Net.execute_fires h1 p, parikh_cons_dot net hu.trans_nodup t ht]
    omega

/-- firing keeps keys distinct and inside the net -/
theorem execute_keys (net : Net P T) (hu : Unit net) (t : T) (m m' : Marking P) (hm : (keys m).Nodup)
    (hk : ∀ p ∈ keys m, p ∈ net.places) (h : net.execute t m = some m') :
    (keys m').Nodup ∧ ∀ p ∈ keys m', p ∈ net.places := by
  have ht : t ∈ net.transitions := ((Net.isEnabled_iff _ _ _).1 ((Net.execute_some_iff _ _ _ _).1 h).1).1
  rw [((Net.execute_some_iff _ _ _ _).1 h).2]
  have hin := hu.inOne t ht
  have hout := hu.outOne t ht
  have hset : ∀ (m : Marking P) (p : P) (v : Int), ((keys m).Nodup ∧ ∀ p ∈ keys m, p ∈ net.places) → p ∈ net.places →
      (keys (Dict.set m p v)).Nodup ∧ ∀ q ∈ keys (Dict.set m p v), q ∈ net.places := by
    intro m p v hm hp
    refine ⟨nodup_set hm.1 _ _, fun q hq => ?_⟩
    rcases (keys_set _ _ _ _).1 hq with rfl | hq
    · exact hp
    · exact hm.2 q hq
  have hc : ∀ (as : List (P × Int)) (m : Marking P), (∀ a ∈ as, a.2 = 1 ∧ a.1 ∈ net.places) →
      ((keys m).Nodup ∧ ∀ p ∈ keys m, p ∈ net.places) →
      ((keys (as.foldl Net.consume m)).Nodup ∧ ∀ p ∈ keys (as.foldl Net.consume m), p ∈ net.places) := by
    intro as
    induction as with
    | nil => intro m _ h; exact h
    | cons a as ih =>
      intro m ha hm
      refine ih _ (fun b hb => ha b (by simp [hb])) ?_
      have h1 := hset m a.1 (count m a.1 - a.2) hm (ha a (by simp)).2
      unfold Net.consume
      simp only
      split
      · exact ⟨nodup_del h1.1 _, fun q hq => h1.2 q ((keys_del _ _ _).1 hq).2⟩
      · exact h1
  have hp : ∀ (as : List (P × Int)) (m : Marking P), (∀ a ∈ as, a.2 = 1 ∧ a.1 ∈ net.places) →
      ((keys m).Nodup ∧ ∀ p ∈ keys m, p ∈ net.places) →
      ((keys (as.foldl Net.produce m)).Nodup ∧ ∀ p ∈ keys (as.foldl Net.produce m), p ∈ net.places) := by
    intro as
    induction as with
    | nil => intro m _ h; exact h
    | cons a as ih =>
      intro m ha hm
      exact ih _ (fun b hb => ha b (by simp [hb])) (hset m a.1 _ hm (ha a (by simp)).2)
  exact hp _ _ hout (hc _ _ hin ⟨hm, hk⟩)

theorem run_keys (net : Net P T) (hu : Unit net) (ts : List T) (m m' : Marking P) (hm : (keys m).Nodup)
    (hk : ∀ p ∈ keys m, p ∈ net.places) (h : ts.foldlM (fun m t => net.execute t m) m = some m') :
    (keys m').Nodup ∧ ∀ p ∈ keys m', p ∈ net.places := by
  induction ts generalizing m with
  | nil => simp at h; subst h; exact ⟨hm, hk⟩
  | cons t ts ih =>
    simp only [List.foldlM_cons, Option.bind_eq_bind, Option.bind_eq_some_iff] at h
    obtain ⟨m1, h1, h2⟩ := h
    have h3 := execute_keys net hu t m m1 hm hk h1
    exact ih m1 h3.1 h3.2 h2

end Incidence

open Incidence

/-- C04: the state equation.  For every firing sequence `ts` from `m` to `m'` in a net whose arcs have weight 1,
row by row: `encode(m')[i] = encode(m)[i] + A[i] · x`, where `A` is the constructed matrix and `x` counts the
occurrences of each transition in `ts`. -/
theorem C04_state_equation {P T : Type} [DecidableEq P] [DecidableEq T] (net : Net P T) (hu : Incidence.Unit net)
    (ts : List T) (m m' : Marking P) (hm : (keys m).Nodup)
    (hk : ∀ p ∈ keys m, p ∈ net.places)
    (h : ts.foldlM (fun m t => net.execute t m) m = some m') :
    encode net m' = List.zipWith (· + ·) (encode net m) ((construct net).map fun row => dot row (parikh net ts)) := by
  obtain ⟨hm', hk'⟩ := run_keys net hu ts m m' hm hk h
  rw [encode_eq net hu.places_nodup m hm hk, encode_eq net hu.places_nodup m' hm' hk', construct_eq net hu]
  rw [List.map_map, List.zipWith_map]
  rw [List.zipWith_self]
  apply List.map_congr_left
  intro p _
  exact state_equation_count net hu ts m m' h p

/-- C04: the matrix entry of place `p` and transition `t` is production minus consumption. -/
theorem C04_matrix {P T : Type} [DecidableEq P] [DecidableEq T] (net : Net P T) (hu : Incidence.Unit net) :
    construct net = net.places.map fun p => net.transitions.map fun t =>
      arcWeight (net.outArcs t) p - arcWeight (net.inArcs t) p := construct_eq net hu

/-- example net `p0 -t0-> p1 -t1-> p0` -/
def exCycle : Net Nat Nat where
  places := [0, 1]
  transitions := [0, 1]
  inArcs t := [(t, 1)]
  outArcs t := [(1 - t, 1)]

example : Incidence.Unit exCycle where
  places_nodup := by decide
  trans_nodup := by decide
  inOne := by decide
  outOne := by decide
example : construct exCycle = [[-1, 1], [1, -1]] := by decide
example : [0, 1, 0].foldlM (fun m t => exCycle.execute t m) ([(0, 1)] : Marking Nat) = some [(1, 1)] := by decide

/-- C04, refuted for weighted arcs: the matrix ignores weights, so the state equation fails for
`t0 : p0 → 2·p1`. -/
theorem C04_weights_refuted :
    ∃ (net : Net Nat Nat) (m m' : Marking Nat), net.Simple ∧ [0].foldlM (fun m t => net.execute t m) m = some m' ∧
      encode net m' ≠ List.zipWith (· + ·) (encode net m) ((construct net).map fun row => dot row (parikh net [0])) := by
  refine ⟨⟨[0, 1], [0], fun _ => [(0, 1)], fun _ => [(1, 2)]⟩, [(0, 1)], [(1, 2)], ?_, by decide, by decide⟩
  exact ⟨by intro t _; simp, by intro t _ a ha; simp at ha; subst ha; decide,
    by intro t _ a ha; simp at ha; subst ha; decide⟩
end Verif
