import Verif.Align.AStarProofs
/-
Termination of the A* search.
-/
set_option linter.unusedSectionVars false
namespace Verif
namespace Align
open Reach
section
variable {S T : Type} [DecidableEq T]
variable {sem : Sem S T} {cost : T → Int} {trans : List T} {Sol : S → (T → Rat) → Prop} {lp : S → Rat × (T → Rat)} {ini fin : S}

/-- the loop has ended -/
def ASt.Done : ASt S T → Prop
  | .running .. => False
  | _ => True

/-- all open tuples, including `curr` -/
def allOpen (o : List (ATup S T)) (cur : Option (ATup S T)) : List (ATup S T) := cur.toList ++ o

theorem ASInv.inv {o : List (ATup S T)} {c : List S} {cur : Option (ATup S T)}
    (h : ASInv sem cost trans Sol lp ini fin (.running o c cur)) :
    ∃ K, AInv sem cost trans Sol lp ini fin (allOpen o cur) c K := by
  cases cur with
  | none => exact h
  | some a => exact h.1

theorem adone_of_measure (sch : ASched S T) (μ : List (ATup S T) → List S → Option (ATup S T) → Nat)
    (h : ∀ n o c u o' c' u', astar sem cost trans lp ini fin sch n = .running o c u →
      astar sem cost trans lp ini fin sch (n + 1) = .running o' c' u' → μ o' c' u' < μ o c u) :
    ∃ n, (astar sem cost trans lp ini fin sch n).Done := by
  have key : ∀ k n o c u, astar sem cost trans lp ini fin sch n = .running o c u → μ o c u ≤ k →
      ∃ n, (astar sem cost trans lp ini fin sch n).Done := by
    intro k
    induction k with
    | zero =>
      intro n o c u h1 h2
      cases h3 : astar sem cost trans lp ini fin sch (n + 1) with
      | running o' c' u' => have := h n o c u o' c' u' h1 h3; omega
      | found x => exact ⟨n + 1, by rw [h3]; trivial⟩
      | exhausted => exact ⟨n + 1, by rw [h3]; trivial⟩
      | indexError => exact ⟨n + 1, by rw [h3]; trivial⟩
    | succ k ih =>
      intro n o c u h1 h2
      cases h3 : astar sem cost trans lp ini fin sch (n + 1) with
      | running o' c' u' => have := h n o c u o' c' u' h1 h3; exact ih (n + 1) o' c' u' h3 (by omega)
      | found x => exact ⟨n + 1, by rw [h3]; trivial⟩
      | exhausted => exact ⟨n + 1, by rw [h3]; trivial⟩
      | indexError => exact ⟨n + 1, by rw [h3]; trivial⟩
  exact key _ 0 _ _ _ rfl (Nat.le_refl _)

/-- the tuples pushed in one expansion -/
def apushed (sem : Sem S T) (cost : T → Int) (trans : List T) (closed : List S) (curr : ATup S T) (l : List T) :
    List (ATup S T) :=
  (l.filter fun t => !closed.any fun c => sem.eqv c (sem.exec t curr.m)).map fun t =>
    let d := derive cost curr.x t curr.h
    ATup.child (curr.g + cost t) d.1 (sem.exec t curr.m) curr t d.2 (trustSolution trans d.2)

theorem pushAll_eq (closed : List S) (curr : ATup S T) (l : List T) (o : List (ATup S T)) :
    pushAll sem cost trans closed curr l o = o ++ apushed sem cost trans closed curr l := by
  unfold pushAll
  induction l generalizing o with
  | nil => simp [apushed]
  | cons t l ih =>
    rw [List.foldl_cons, ih]
    by_cases h : (closed.any fun c => sem.eqv c (sem.exec t curr.m)) = true
    · simp [apushed, h]
    · have h' := (Bool.not_eq_true _).mp h
      simp [apushed, h']

theorem apushed_length (closed : List S) (curr : ATup S T) (l : List T) :
    (apushed sem cost trans closed curr l).length ≤ l.length := by
  unfold apushed; rw [List.length_map]; exact List.length_filter_le _ _

/-- what a step that stays in the loop does -/
theorem astep_cases (sch : ASched S T) (hs : sch.Ok) (n : Nat) {o o' : List (ATup S T)} {c c' : List S}
    {u u' : Option (ATup S T)} (h : astarStep sem cost trans lp fin sch n (.running o c u) = .running o' c' u') :
    (u = none ∧ u'.isSome ∧ c' = c ∧ o.Perm (allOpen o' u')) ∨
    (∃ a, u = some a ∧ u'.isSome ∧ c' = c ∧ a.trust = false ∧
      (o.Perm (allOpen o' u') ∨ (o ++ [a.retrust (lp a.m).1 (lp a.m).2]).Perm (allOpen o' u'))) ∨
    (∃ a, u = some a ∧ u' = none ∧ a.trust = true ∧ ((c' = c ∧ o' = o) ∨
      ((c.any fun x => sem.eqv x a.m) = false ∧ c' = c ++ [a.m] ∧
        o' = o ++ apushed sem cost trans c' a (sch.ord n (sem.enabled a.m))))) := by
  have hpop : ∀ (q : List (ATup S T)) (e : ASt S T), (∀ o c u, e ≠ .running o c u) →
      (match sch.pop n q with
        | none => e
        | some (curr, rest) => .running rest c (some curr)) = ASt.running o' c' u' →
      u'.isSome ∧ c' = c ∧ q.Perm (allOpen o' u') := by
    intro q e he h
    cases q with
    | nil => rw [hs.pop_nil] at h; exact (he _ _ _ h).elim
    | cons z q' =>
      obtain ⟨curr, rest, hp, hperm, _⟩ := hs.pop_cons n (z :: q') (by simp)
      rw [hp] at h
      simp only [ASt.running.injEq] at h
      obtain ⟨rfl, rfl, rfl⟩ := h
      exact ⟨rfl, rfl, hperm⟩
  cases u with
  | none =>
    obtain ⟨h1, h2, h3⟩ := hpop o _ (by intros; simp) h
    exact .inl ⟨rfl, h1, h2, h3⟩
  | some a =>
    right
    simp only [astarStep] at h
    split at h
    · rename_i ht
      left
      have ht : a.trust = false := by simpa using ht
      split at h
      · obtain ⟨h1, h2, h3⟩ := hpop _ _ (by intros; simp) h
        exact ⟨a, rfl, h1, h2, ht, .inl h3⟩
      · obtain ⟨h1, h2, h3⟩ := hpop _ _ (by intros; simp) h
        exact ⟨a, rfl, h1, h2, ht, .inr h3⟩
    · rename_i ht
      right
      have ht : a.trust = true := by simpa using ht
      split at h
      · simp only [ASt.running.injEq] at h
        obtain ⟨rfl, rfl, rfl⟩ := h
        exact ⟨a, rfl, rfl, ht, .inl ⟨rfl, rfl⟩⟩
      · split at h
        · simp only [ASt.running.injEq] at h
          obtain ⟨rfl, rfl, rfl⟩ := h
          exact ⟨a, rfl, rfl, ht, .inl ⟨rfl, rfl⟩⟩
        · rename_i hcl
          split at h
          · cases h
          · rw [pushAll_eq] at h
            simp only [ASt.running.injEq] at h
            obtain ⟨rfl, rfl, rfl⟩ := h
            exact ⟨a, rfl, rfl, ht, .inr ⟨by simpa using hcl, rfl, rfl⟩⟩

/-- untrusted tuples count twice: they may be put back once -/
def tw (a : ATup S T) : Nat := if a.trust then 2 else 4

theorem retrust_trust (a : ATup S T) (h : Rat) (x : T → Rat) : (a.retrust h x).trust = true := by cases a <;> rfl
theorem retrust_alignment (a : ATup S T) (h : Rat) (x : T → Rat) : (a.retrust h x).alignment = a.alignment := by cases a <;> rfl

theorem sum_le_const {X : Type} (l : List X) (f : X → Nat) (k : Nat) (h : ∀ x ∈ l, f x ≤ k) : (l.map f).sum ≤ l.length * k := by
  induction l with
  | nil => simp
  | cons x l ih =>
    have h1 := h x List.mem_cons_self
    have h2 := ih fun y hy => h y (List.mem_cons_of_mem _ hy)
    rw [List.map_cons, List.sum_cons, List.length_cons, Nat.succ_mul]; omega

/-- the loop ends on every finite state space -/
theorem aterminates_finite (hl : Lawful sem ini) (hq : MarkingEq sem ini fin trans Sol) (hlp : LpOk cost trans Sol lp)
    (hc : ∀ t, 0 ≤ cost t) (sch : ASched S T) (hs : sch.Ok) (L : List S)
    (hL : ∀ m, Reachable sem ini m → ∃ x ∈ L, sem.eqv x m = true) (B : Nat)
    (hB : ∀ m, Reachable sem ini m → (sem.enabled m).length ≤ B) :
    ∃ n, (astar sem cost trans lp ini fin sch n).Done := by
  refine adone_of_measure sch
    (fun o c u => ((allOpen o u).map tw).sum + (if u.isNone then 1 else 0) +
      (4 * B + 2) * L.countP fun x => !c.any fun y => sem.eqv y x) ?_
  intro n o c u o' c' u' h1 h2
  have hi := astar_inv (fin := fin) hl hq hlp hc sch hs n
  rw [h1] at hi
  obtain ⟨K, hi⟩ := hi.inv
  rw [astar, h1] at h2
  rcases astep_cases sch hs n h2 with ⟨rfl, hu, rfl, hp⟩ | ⟨a, rfl, hu, rfl, ht, hp⟩ | ⟨a, rfl, rfl, ht, h⟩
  · have := (hp.map tw).sum_nat
    have hu : u'.isNone = false := by simpa using hu
    simp only [hu, allOpen, Option.toList_none, List.nil_append, Option.isNone_none, if_true] at this ⊢
    simp only [Bool.false_eq_true, if_false]; omega
  · have hu : u'.isNone = false := by simpa using hu
    have e1 : ((allOpen o (some a)).map tw).sum = 4 + (o.map tw).sum := by simp [allOpen, tw, ht]
    simp only [hu, e1]
    rcases hp with hp | hp
    · have := (hp.map tw).sum_nat; simp; omega
    · have := (hp.map tw).sum_nat
      rw [List.map_append, List.sum_append_nat] at this
      simp only [List.map_cons, List.map_nil, List.sum_cons, List.sum_nil, tw, retrust_trust, if_true] at this
      simp [tw] at this ⊢; omega
  · have e1 : ((allOpen o (some a)).map tw).sum = 2 + (o.map tw).sum := by simp [allOpen, tw, ht]
    simp only [e1]
    rcases h with ⟨rfl, rfl⟩ | ⟨hncl, rfl, rfl⟩
    · simp [allOpen]; omega
    · have hr : Reachable sem ini a.m := (hi.valid a (by simp [allOpen])).path.reachable
      obtain ⟨x, hx, hxe⟩ := hL _ hr
      have hlt : (L.countP fun x => !(c ++ [a.m]).any fun y => sem.eqv y x) < L.countP fun x => !c.any fun y => sem.eqv y x := by
        refine countP_lt _ _ _ ?_ x hx ?_ ?_
        · intro z _ hz; simp only [List.any_append, Bool.not_or, Bool.and_eq_true] at hz; exact hz.1
        · rw [Bool.not_eq_true', ← Bool.not_eq_true, List.any_eq_true]
          rintro ⟨y, hy, hye⟩
          rw [← Bool.not_eq_true, List.any_eq_true] at hncl
          exact hncl ⟨y, hy, hl.trans _ _ _ hye hxe⟩
        · simp [hl.symm _ _ hxe]
      have h4 := apushed_length (sem := sem) (cost := cost) (trans := trans) (c ++ [a.m]) a (sch.ord n (sem.enabled a.m))
      have h5 := (hs.ord_perm n (sem.enabled a.m)).length_eq
      have h6 := hB _ hr
      have h7 := Nat.mul_le_mul_left (4 * B + 2) (Nat.succ_le_of_lt hlt)
      have h8 := sum_le_const (apushed sem cost trans (c ++ [a.m]) a (sch.ord n (sem.enabled a.m))) tw 4 (by
        intro x _; unfold tw; split <;> omega)
      rw [Nat.mul_succ] at h7
      simp only [allOpen, Option.toList_none, List.nil_append, List.map_append, List.sum_append_nat, Option.isNone_none, if_true,
        Option.isNone_some, Bool.false_eq_true, if_false]
      omega

/-- weight of an open tuple in the second termination argument -/
def aweight (B N : Nat) (a : ATup S T) : Nat :=
  if a.alignment.length ≤ N then tw a * (4 * B + 4) ^ (N - a.alignment.length) else 0

/-- the loop ends as soon as there is a path to the goal and paths of at most that cost have bounded length (the state
space may be infinite) -/
theorem aterminates_bounded (hl : Lawful sem ini) (hq : MarkingEq sem ini fin trans Sol) (hlp : LpOk cost trans Sol lp)
    (hc : ∀ t, 0 ≤ cost t) (sch : ASched S T) (hs : sch.Ok)
    (ts0 : List T) (m0 : S) (hp0 : Path sem ini ts0 m0) (hf0 : sem.eqv m0 fin = true)
    (hmax : (totalCost cost ts0 : Rat) ≤ maxAllowed) (N : Nat)
    (hN : ∀ ts m, Path sem ini ts m → totalCost cost ts ≤ totalCost cost ts0 → ts.length ≤ N) (B : Nat)
    (hB : ∀ m, Reachable sem ini m → (sem.enabled m).length ≤ B) :
    ∃ n, (astar sem cost trans lp ini fin sch n).Done := by
  refine adone_of_measure sch
    (fun o _ u => ((allOpen o u).map (aweight B N)).sum + if u.isNone then 1 else 0) ?_
  intro n o c u o' c' u' h1 h2
  have hi0 := astar_inv (fin := fin) hl hq hlp hc sch hs n
  rw [h1] at hi0
  obtain ⟨K, hi⟩ := hi0.inv
  rw [astar, h1] at h2
  have hcur : ∀ a, u = some a → a.alignment.length ≤ N := by
    rintro a rfl
    obtain ⟨y, hy, hyf⟩ := acover_fin hl hq hc hi hp0 hf0 hmax
    have hle : a.f ≤ y.f := by
      rcases List.mem_cons.1 (show y ∈ a :: o from hy) with rfl | hy
      · exact le_refl _
      · exact hi0.2 y hy
    have hv := hi.valid a (by simp [allOpen])
    have h3 := hv.nonneg
    apply hN _ _ hv.path
    rw [← hv.gcost]
    have : (a.g : Rat) ≤ totalCost cost ts0 := by unfold ATup.f at hyf hle; linarith
    exact_mod_cast this
  have hpos : ∀ k, 0 < (4 * B + 4) ^ k := fun k => Nat.pow_pos (by omega)
  rcases astep_cases sch hs n h2 with ⟨rfl, hu, rfl, hp⟩ | ⟨a, rfl, hu, rfl, ht, hp⟩ | ⟨a, rfl, rfl, ht, h⟩
  · have := (hp.map (aweight B N)).sum_nat
    have hu : u'.isNone = false := by simpa using hu
    simp only [hu, allOpen, Option.toList_none, List.nil_append, Option.isNone_none, if_true] at this ⊢
    simp only [Bool.false_eq_true, if_false]; omega
  · have hu : u'.isNone = false := by simpa using hu
    have hlen := hcur a rfl
    have hw : aweight B N a = 4 * (4 * B + 4) ^ (N - a.alignment.length) := by simp [aweight, hlen, tw, ht]
    have hp1 := hpos (N - a.alignment.length)
    have e1 : ((allOpen o (some a)).map (aweight B N)).sum = aweight B N a + (o.map (aweight B N)).sum := by simp [allOpen]
    simp only [hu, e1, hw, Option.isNone_some, Bool.false_eq_true, if_false]
    rcases hp with hp | hp
    · have := (hp.map (aweight B N)).sum_nat; omega
    · have := (hp.map (aweight B N)).sum_nat
      rw [List.map_append, List.sum_append_nat] at this
      have hw2 : aweight B N (a.retrust (lp a.m).1 (lp a.m).2) = 2 * (4 * B + 4) ^ (N - a.alignment.length) := by
        simp [aweight, retrust_alignment, hlen, tw, retrust_trust]
      simp only [List.map_cons, List.map_nil, List.sum_cons, List.sum_nil, hw2] at this
      omega
  · have hlen := hcur a rfl
    have hw : aweight B N a = 2 * (4 * B + 4) ^ (N - a.alignment.length) := by simp [aweight, hlen, tw, ht]
    have hp1 := hpos (N - a.alignment.length)
    have e1 : ((allOpen o (some a)).map (aweight B N)).sum = aweight B N a + (o.map (aweight B N)).sum := by simp [allOpen]
    simp only [e1, hw, Option.isNone_some, Bool.false_eq_true, if_false, Option.isNone_none, if_true]
    rcases h with ⟨rfl, rfl⟩ | ⟨hncl, rfl, rfl⟩
    · simp only [allOpen, Option.toList_none, List.nil_append]; omega
    · have hr : Reachable sem ini a.m := (hi.valid a (by simp [allOpen])).path.reachable
      have h4 := apushed_length (sem := sem) (cost := cost) (trans := trans) (c ++ [a.m]) a (sch.ord n (sem.enabled a.m))
      have h5 := (hs.ord_perm n (sem.enabled a.m)).length_eq
      have h6 := hB _ hr
      simp only [allOpen, Option.toList_none, List.nil_append, List.map_append, List.sum_append_nat]
      have hchild : ∀ x ∈ apushed sem cost trans (c ++ [a.m]) a (sch.ord n (sem.enabled a.m)),
          x.alignment.length = a.alignment.length + 1 := by
        intro x hx
        unfold apushed at hx
        obtain ⟨t, _, rfl⟩ := List.mem_map.1 hx
        simp [ATup.alignment]
      by_cases hlt : a.alignment.length + 1 ≤ N
      · have h8 := sum_le_const (apushed sem cost trans (c ++ [a.m]) a (sch.ord n (sem.enabled a.m))) (aweight B N)
          (4 * (4 * B + 4) ^ (N - (a.alignment.length + 1))) (by
            intro x hx
            unfold aweight
            rw [hchild x hx, if_pos hlt]
            apply Nat.mul_le_mul_right
            unfold tw; split <;> omega)
        have e : (4 * B + 4) ^ (N - a.alignment.length) = (4 * B + 4) * (4 * B + 4) ^ (N - (a.alignment.length + 1)) := by
          rw [show N - a.alignment.length = (N - (a.alignment.length + 1)) + 1 by omega, Nat.pow_succ, Nat.mul_comm]
        have hp2 := hpos (N - (a.alignment.length + 1))
        generalize (4 * B + 4) ^ (N - (a.alignment.length + 1)) = X at *
        have h9 := Nat.mul_le_mul_right (4 * X) (show (apushed sem cost trans (c ++ [a.m]) a (sch.ord n (sem.enabled a.m))).length ≤ B by omega)
        rw [e]
        have e2 : 2 * ((4 * B + 4) * X) = 2 * (B * (4 * X)) + 8 * X := by ring
        have e3 : 0 ≤ B * (4 * X) := Nat.zero_le _
        omega
      · have h8 := sum_le_const (apushed sem cost trans (c ++ [a.m]) a (sch.ord n (sem.enabled a.m))) (aweight B N) 0 (by
            intro x hx
            unfold aweight
            rw [hchild x hx, if_neg hlt])
        rw [Nat.mul_zero] at h8
        omega
end
end Align
end Verif
