import Verif.Petri.ProofsMarking
/-
Property theorems C01 (firing), C02 (markings), C28 (inhibitor/reset nets).
-/
namespace Verif
open Dict

section C01
variable {P T : Type} [DecidableEq P] [DecidableEq T]

/-- C01: `execute` returns `None` exactly if the transition is not in the net or one of its input arcs asks for
more tokens than its place holds. -/
theorem C01_execute_none_iff (net : Net P T) (t : T) (m : Marking P) :
    net.execute t m = none ↔ ¬ (t ∈ net.transitions ∧ ∀ a ∈ net.inArcs t, a.2 ≤ count m a.1) := by
  rw [← Net.isEnabled_iff]
  unfold Net.execute
  split <;> simp_all

/-- C01: for nets without parallel arcs `is_enabled` is the textbook enabledness. -/
theorem C01_is_enabled (net : Net P T) (hs : net.Simple) (t : T) (m : Marking P) (hm : Pos m) :
    net.isEnabled t m = true ↔ net.Enabled t m := Net.isEnabled_iff_enabled net hs t m hm

/-- C01: the marking returned by `execute` is exact on every place (also with parallel arcs). -/
theorem C01_execute_exact (net : Net P T) (t : T) (m m' : Marking P) (h : net.execute t m = some m') :
    net.Fires t m m' := Net.execute_fires h

/-- C01: without parallel arcs, `execute` never stores a zero or negative number of tokens. -/
theorem C01_execute_positive (net : Net P T) (hs : net.Simple) (t : T) (m m' : Marking P) (hm : Pos m)
    (h : net.execute t m = some m') : Pos m' := Net.execute_pos hs hm h

/-- C01: `weak_execute` of an enabled transition gives the same marking as `execute`. -/
theorem C01_weak_execute (net : Net P T) (hs : net.Simple) (t : T) (m : Marking P) (hm : Pos m)
    (h : net.Enabled t m) : net.execute t m = some (net.weakExecute t m) :=
  Net.weakExecute_eq hs hm ((Net.isEnabled_iff_enabled net hs t m hm).2 h)

/-- C01: `PetriNetSemantics.fire` changes every place by exactly production minus consumption. -/
theorem C01_fire_exact (net : Net P T) (t : T) (m : Marking P) : net.Fires t m (net.fire t m) := by
  intro p
  unfold Net.fire
  rw [Net.count_foldl_produce]
  have : ∀ (as : List (P × Int)) (m : Marking P),
      count (as.foldl (fun m a => Dict.set m a.1 (count m a.1 - a.2)) m) p = count m p - arcWeight as p := by
    intro as
    induction as with
    | nil => intro m; simp
    | cons a as ih =>
      intro m
      simp only [List.foldl_cons, ih, count_set, arcWeight_cons]; split <;> simp_all <;> omega
  rw [this]

/-- C01: `enabled_transitions` lists exactly the enabled transitions. -/
theorem C01_enabled_transitions (net : Net P T) (hs : net.Simple) (m : Marking P) (hm : Pos m) (t : T) :
    t ∈ net.enabledTransitions m ↔ net.Enabled t m := by
  rw [← Net.isEnabled_iff_enabled net hs t m hm, Net.enabledTransitions, List.mem_filter]
  constructor
  · exact fun h => h.2
  · intro h; exact ⟨((Net.isEnabled_iff _ _ _).1 h).1, h⟩

/-- C01 over whole runs: firing any sequence of transitions from a marking with positive entries keeps all
entries positive. -/
theorem C01_run_positive (net : Net P T) (hs : net.Simple) (ts : List T) (m m' : Marking P) (hm : Pos m)
    (h : ts.foldlM (fun m t => net.execute t m) m = some m') : Pos m' := by
  induction ts generalizing m with
  | nil => simp at h; subst h; exact hm
  | cons t ts ih =>
    simp only [List.foldlM_cons, Option.bind_eq_bind, Option.bind_eq_some_iff] at h
    obtain ⟨m1, h1, h2⟩ := h
    exact ih m1 (Net.execute_pos hs hm h1) h2

/-- A net used as example: `t0 : p0 → 2·p1`, `t1 : 2·p1 → p2`. -/
def exNet : Net Nat Nat where
  places := [0, 1, 2]
  transitions := [0, 1]
  inArcs t := if t = 0 then [(0, 1)] else [(1, 2)]
  outArcs t := if t = 0 then [(1, 2)] else [(2, 1)]

theorem exNet_simple : exNet.Simple where
  noParallel := by intro t _; by_cases h : t = 0 <;> simp [exNet, h]
  inPos := by intro t _ a ha; by_cases h : t = 0 <;> simp [exNet, h] at ha <;> subst ha <;> decide
  outPos := by intro t _ a ha; by_cases h : t = 0 <;> simp [exNet, h] at ha <;> subst ha <;> decide

example : exNet.execute 0 [(0, 1)] = some [(1, 2)] := by decide
example : [0, 1].foldlM (fun m t => exNet.execute t m) ([(0, 1)] : Marking Nat) = some [(2, 1)] := by decide

/-- The guard "no parallel arcs" is needed: with two arcs from the same place `execute` stores -1 tokens. -/
theorem C01_parallel_arcs_refuted :
    ∃ (net : Net Nat Nat) (m m' : Marking Nat), Pos m ∧ net.execute 0 m = some m' ∧ count m' 0 = -1 := by
  refine ⟨⟨[0], [0], fun _ => [(0, 1), (0, 1)], fun _ => []⟩, [(0, 1)], [(0, -1)], ?_, by decide, by decide⟩
  intro k v hk
  simp [get?] at hk; omega

end C01

section C02
variable {P : Type} [DecidableEq P]

/-- C02: on markings with positive entries `==` is equality of token counts. -/
theorem C02_eq (m n : Marking P) (hm : Pos m) (hn : Pos n) : Marking.eq m n = true ↔ SameTokens m n := by
  rw [Marking.eq_iff]
  exact ⟨fun h p => Marking.count_eq_of_get? (h p), fun h => hm.ext hn h⟩

/-- C02: `==` is an equivalence relation (all markings). -/
theorem C02_eq_equivalence : Equivalence (fun m n : Marking P => Marking.eq m n = true) where
  refl m := (Marking.eq_iff m m).2 fun _ => rfl
  symm h := (Marking.eq_iff _ _).2 fun p => ((Marking.eq_iff _ _).1 h p).symm
  trans h1 h2 := (Marking.eq_iff _ _).2 fun p => ((Marking.eq_iff _ _).1 h1 p).trans ((Marking.eq_iff _ _).1 h2 p)

/-- C02: equal markings have the same set of keys, hence the same `__hash__` (obj.py:25-26, the hash of the
frozenset of keys). -/
theorem C02_hash (m n : Marking P) (h : Marking.eq m n = true) (p : P) : p ∈ keys m ↔ p ∈ keys n := by
  rw [mem_keys_iff, mem_keys_iff, (Marking.eq_iff m n).1 h p]

/-- C02: on markings with positive entries `<=` is the pointwise order. -/
theorem C02_le (m n : Marking P) (hm : Pos m) (hn : Pos n) :
    Marking.le m n = true ↔ ∀ p, count m p ≤ count n p := by
  rw [Marking.le_iff]
  constructor
  · intro h p
    by_cases hp : p ∈ keys m
    · exact (h p hp).2
    · rw [mem_keys_iff] at hp
      simp at hp
      have := hn.count_nonneg p
      simp only [count, hp] at *
      exact this
  · intro h p hp
    refine ⟨?_, h p⟩
    rw [mem_keys_iff] at hp ⊢
    have := h p
    rw [hm.get?_eq] at hp
    rw [hn.get?_eq]
    have h2 := hm.count_nonneg p
    by_cases h0 : count m p = 0
    · simp [h0] at hp
    · rw [if_neg (by omega)]; rfl

/-- C02: addition is pointwise and keeps entries positive. -/
theorem C02_add (m n : Marking P) (hm : (keys m).Nodup) (hn : (keys n).Nodup) :
    (∀ p, count (Marking.add m n) p = count m p + count n p) ∧ (Pos m → Pos n → Pos (Marking.add m n)) :=
  ⟨Marking.add_count m n hm hn, Marking.add_pos m n hm hn⟩

/-- C02: subtraction is pointwise; if `n` is contained in `m` the result has positive entries only. -/
theorem C02_sub (m n : Marking P) (hm : (keys m).Nodup) (hn : (keys n).Nodup) :
    (∀ p, count (Marking.sub m n) p = count m p - count n p) ∧
    (Pos m → (∀ p, count n p ≤ count m p) → Pos (Marking.sub m n)) :=
  ⟨Marking.sub_count m n hm hn, Marking.sub_pos m n hm hn⟩

/-- C02: `(m + n) - n == m`. -/
theorem C02_add_sub (m n : Marking P) (hm : (keys m).Nodup) (hn : (keys n).Nodup) (pm : Pos m) (pn : Pos n) :
    Marking.eq (Marking.sub (Marking.add m n) n) m = true := by
  have hc := Marking.add_count m n hm hn
  have hN := Marking.add_nodup m n
  rw [C02_eq]
  · intro p; rw [Marking.sub_count _ _ hN hn, hc]; omega
  · apply Marking.sub_pos _ _ hN hn (Marking.add_pos m n hm hn pm pn)
    intro p; rw [hc]; have := pm.count_nonneg p; omega
  · exact pm

/-- C02: if `m <= n` then `(n - m) + m == n`. -/
theorem C02_sub_add (m n : Marking P) (hm : (keys m).Nodup) (hn : (keys n).Nodup) (pm : Pos m) (pn : Pos n)
    (h : Marking.le m n = true) : Marking.eq (Marking.add (Marking.sub n m) m) n = true := by
  rw [C02_le m n pm pn] at h
  have hs := Marking.sub_nodup n m
  have ps := Marking.sub_pos n m hn hm pn h
  rw [C02_eq _ _ (Marking.add_pos _ _ hs hm ps pm) pn]
  intro p
  rw [Marking.add_count _ _ hs hm, Marking.sub_count _ _ hn hm]; omega

example : Pos ([(0, 2), (3, 1)] : Marking Nat) ∧ (keys ([(0, 2), (3, 1)] : Marking Nat)).Nodup := by
  refine ⟨?_, by decide⟩
  intro k v h
  simp only [get?] at h
  grind

/-- Positivity is needed: with a stored zero, markings with the same tokens are different. -/
theorem C02_zero_entry_refuted : ∃ m n : Marking Nat, SameTokens m n ∧ Marking.eq m n = false ∧ Marking.le m n = false := by
  refine ⟨[(0, 0)], [], ?_, by decide, by decide⟩
  intro p
  simp [count, get?]
  split <;> rfl

end C02

section C28
variable {P T : Type} [DecidableEq P] [DecidableEq T]

/-- the normal input arcs of a transition -/
def normalArcs (arcs : List (ArcKind × P × Int)) : List (P × Int) :=
  (arcs.filter fun a => decide (a.1 = .normal)).map Prod.snd

/-- C28: enabledness in inhibitor/reset nets. -/
theorem C28_is_enabled (net : IRNet P T) (t : T) (m : Marking P) :
    net.isEnabled t m = true ↔ t ∈ net.transitions ∧
      (∀ p w, (ArcKind.normal, p, w) ∈ net.inArcs t → w ≤ count m p) ∧
      (∀ p w, (ArcKind.inhibitor, p, w) ∈ net.inArcs t → count m p ≤ 0) := by
  unfold IRNet.isEnabled
  split
  · rename_i ht
    simp only [ht, true_and, List.all_eq_true]
    constructor
    · intro h
      exact ⟨fun p w hp => by simpa [IRNet.arcOk] using h _ hp, fun p w hp => by simpa [IRNet.arcOk] using h _ hp⟩
    · rintro ⟨h1, h2⟩ ⟨k, p, w⟩ ha
      cases k with
      | normal => simpa [IRNet.arcOk] using h1 p w ha
      | inhibitor => simpa [IRNet.arcOk] using h2 p w ha
      | reset => rfl
  · rename_i ht; simp [ht]

open Classical in
theorem IRNet.count_foldl_consume (as : List (ArcKind × P × Int)) (m : Marking P) (p : P)
    (hx : ∀ w w', ¬ ((ArcKind.reset, p, w) ∈ as ∧ (ArcKind.normal, p, w') ∈ as)) :
    count (as.foldl IRNet.consume m) p =
      if ∃ w, (ArcKind.reset, p, w) ∈ as then 0 else count m p - arcWeight (normalArcs as) p := by
  induction as generalizing m with
  | nil => simp [normalArcs]
  | cons a as ih =>
    have hx' : ∀ w w', ¬ ((ArcKind.reset, p, w) ∈ as ∧ (ArcKind.normal, p, w') ∈ as) :=
      fun w w' h => hx w w' ⟨by simp [h.1], by simp [h.2]⟩
    rw [List.foldl_cons, ih _ hx']
    obtain ⟨k, q, v⟩ := a
    by_cases hr : ∃ w, (ArcKind.reset, p, w) ∈ as
    · rw [if_pos hr, if_pos]
      obtain ⟨w, hw⟩ := hr; exact ⟨w, by simp [hw]⟩
    · rw [if_neg hr]
      cases k with
      | normal =>
        have : ¬ ∃ w, (ArcKind.reset, p, w) ∈ (ArcKind.normal, q, v) :: as := by simpa using hr
        rw [if_neg this]
        simp only [IRNet.consume, Net.count_consume, normalArcs, List.filter_cons, decide_true, if_true,
          List.map_cons, arcWeight_cons]
        omega
      | inhibitor =>
        have : ¬ ∃ w, (ArcKind.reset, p, w) ∈ (ArcKind.inhibitor, q, v) :: as := by simpa using hr
        rw [if_neg this]
        simp [IRNet.consume, normalArcs]
      | reset =>
        by_cases hq : q = p
        · subst hq
          rw [if_pos ⟨v, by simp⟩]
          have : arcWeight (normalArcs as) q = 0 := by
            apply arcWeight_eq_zero
            intro hm
            simp only [normalArcs, List.map_map, List.mem_map, List.mem_filter] at hm
            obtain ⟨⟨k, q', w⟩, ⟨h1, h2⟩, h3⟩ := hm
            simp at h2 h3
            subst h2; subst h3
            exact hx v w ⟨by simp, by simp [h1]⟩
          simp [IRNet.consume, count_del, this]
        · have : ¬ ∃ w, (ArcKind.reset, p, w) ∈ (ArcKind.reset, q, v) :: as := by
            rintro ⟨w, hw⟩
            simp only [List.mem_cons, Prod.mk.injEq, true_and] at hw
            rcases hw with ⟨h, _⟩ | hw
            · exact hq h.symm
            · exact hr ⟨w, hw⟩
          rw [if_neg this]
          simp [IRNet.consume, count_del, count_set, hq, normalArcs]

/-- C28: firing in an inhibitor/reset net: a reset place is emptied before production, inhibitor arcs consume
nothing, every other place loses the weight of its normal arcs; provided no place is both reset and read by a
normal arc of the same transition. -/
theorem C28_execute (net : IRNet P T) (t : T) (m m' : Marking P) (h : net.execute t m = some m') (p : P)
    (hx : ∀ w w', ¬ ((ArcKind.reset, p, w) ∈ net.inArcs t ∧ (ArcKind.normal, p, w') ∈ net.inArcs t)) :
    ((∃ w, (ArcKind.reset, p, w) ∈ net.inArcs t) → count m' p = arcWeight (net.outArcs t) p) ∧
    ((¬ ∃ w, (ArcKind.reset, p, w) ∈ net.inArcs t) →
      count m' p = count m p - arcWeight (normalArcs (net.inArcs t)) p + arcWeight (net.outArcs t) p) := by
  unfold IRNet.execute at h
  split at h
  · simp only [Option.some.injEq] at h
    rw [← h, Net.count_foldl_produce, IRNet.count_foldl_consume _ _ _ hx]
    constructor
    · intro hr; rw [if_pos hr]; omega
    · intro hr; rw [if_neg hr]
  · simp at h

/-- C28: a disabled transition is not executed. -/
theorem C28_execute_none (net : IRNet P T) (t : T) (m : Marking P) :
    net.execute t m = none ↔ net.isEnabled t m = false := by
  unfold IRNet.execute; split <;> simp_all

/-- The guard is needed: a place with a reset and a normal arc may become negative (Python iterates the arcs in
set order; here the reset arc comes first). -/
theorem C28_reset_and_normal_refuted :
    ∃ (net : IRNet Nat Nat) (m m' : Marking Nat), Pos m ∧ net.execute 0 m = some m' ∧ count m' 0 = -1 := by
  refine ⟨⟨[0], fun _ => [(.reset, 0, 1), (.normal, 0, 1)], fun _ => []⟩, [(0, 3)], [(0, -1)], ?_, by decide, by decide⟩
  intro k v hk
  simp [get?] at hk; omega

example : (⟨[0], fun _ => [(.reset, 0, 1), (.inhibitor, 1, 1), (.normal, 2, 1)], fun _ => [(0, 1)]⟩ : IRNet Nat Nat).execute 0
    [(0, 3), (2, 2)] = some [(2, 1), (0, 1)] := by decide
end C28
end Verif
