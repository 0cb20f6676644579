import Verif.Align.Model
/-
Correctness of the search loop `__search` over an arbitrary state space.
-/
namespace Verif
namespace Align
open Reach

section
variable {S T : Type}

/-- sum of the costs of a sequence of transitions -/
def totalCost (cost : T → Int) (ts : List T) : Int := (ts.map cost).sum

/-- paths of the state space -/
inductive Path (sem : Sem S T) (ini : S) : List T → S → Prop
  | nil : Path sem ini [] ini
  | snoc {ts m t} : Path sem ini ts m → t ∈ sem.enabled m → Path sem ini (ts ++ [t]) (sem.exec t m)

theorem Path.reachable {sem : Sem S T} {ini : S} {ts : List T} {m : S} (h : Path sem ini ts m) : Reachable sem ini m := by
  induction h with
  | nil => exact .refl
  | snoc _ ht ih => exact .step ih ⟨ht, rfl⟩

/-- search tuples as the loop builds them -/
inductive Valid (sem : Sem S T) (cost : T → Int) (ini : S) : Tup S T → Prop
  | root : Valid sem cost ini (.root ini)
  | child {p t} : Valid sem cost ini p → t ∈ sem.enabled p.m →
      Valid sem cost ini (.child (p.g + cost t) (sem.exec t p.m) p t (p.l + 1))

theorem Valid.path {sem : Sem S T} {cost : T → Int} {ini : S} {x : Tup S T} (h : Valid sem cost ini x) :
    Path sem ini x.alignment x.m ∧ x.g = totalCost cost x.alignment ∧ x.l = x.alignment.length := by
  induction h with
  | root => exact ⟨.nil, by simp [Tup.g, Tup.alignment, totalCost], rfl⟩
  | child hp ht ih =>
    obtain ⟨h1, h2, h3⟩ := ih
    refine ⟨.snoc h1 ht, ?_, ?_⟩
    · simp only [Tup.g, Tup.alignment, totalCost, List.map_append, List.sum_append] at h2 ⊢
      simp [h2]
    · simp only [Tup.alignment, List.length_append, List.length_singleton, ← h3]; rfl

variable (sem : Sem S T) (cost : T → Int) (ini fin : S)

/-- loop invariant; `K` records, for every closed state, the cost at which it was closed -/
structure Inv (openSet : List (Tup S T)) (closed : List S) (K : List (S × Int)) : Prop where
  fst : K.map Prod.fst = closed
  valid : ∀ x ∈ openSet, Valid sem cost ini x
  reach : ∀ k ∈ K, Reachable sem ini k.1
  notFin : ∀ k ∈ K, sem.eqv k.1 fin = false
  mono : ∀ k ∈ K, ∀ x ∈ openSet, k.2 ≤ x.g
  succ : ∀ k ∈ K, ∀ t ∈ sem.enabled k.1,
    (∃ k' ∈ K, sem.eqv k'.1 (sem.exec t k.1) = true ∧ k'.2 ≤ k.2 + cost t) ∨
    (∃ y ∈ openSet, sem.eqv y.m (sem.exec t k.1) = true ∧ y.g ≤ k.2 + cost t)
  start : (∃ k ∈ K, sem.eqv k.1 ini = true ∧ k.2 ≤ 0) ∨ (∃ y ∈ openSet, sem.eqv y.m ini = true ∧ y.g ≤ 0)

/-- invariant of the state of the search -/
def SInv : St S T → Prop
  | .running o c => ∃ K, Inv sem cost ini fin o c K
  | .found x => Valid sem cost ini x ∧ sem.eqv x.m fin = true ∧
      ∀ ts m, Path sem ini ts m → sem.eqv m fin = true → x.g ≤ totalCost cost ts
  | .exhausted => ∀ ts m, Path sem ini ts m → sem.eqv m fin = false

variable {sem cost ini fin}

theorem mem_push (closed : List S) (curr : Tup S T) (l : List T) (o : List (Tup S T)) (y : Tup S T) :
    y ∈ l.foldl (fun o t =>
        if closed.any fun c => sem.eqv c (sem.exec t curr.m) then o
        else o ++ [Tup.child (curr.g + cost t) (sem.exec t curr.m) curr t (curr.l + 1)]) o ↔
      y ∈ o ∨ ∃ t ∈ l, (closed.any fun c => sem.eqv c (sem.exec t curr.m)) = false ∧
        y = Tup.child (curr.g + cost t) (sem.exec t curr.m) curr t (curr.l + 1) := by
  induction l generalizing o with
  | nil => simp
  | cons t l ih =>
    rw [List.foldl_cons, ih]
    by_cases h : (closed.any fun c => sem.eqv c (sem.exec t curr.m)) = true
    · rw [if_pos h]
      constructor
      · rintro (h1 | ⟨t', h1, h2, h3⟩)
        · exact .inl h1
        · exact .inr ⟨t', List.mem_cons_of_mem _ h1, h2, h3⟩
      · rintro (h1 | ⟨t', h1, h2, h3⟩)
        · exact .inl h1
        · rcases List.mem_cons.1 h1 with rfl | h1
          · rw [h] at h2; cases h2
          · exact .inr ⟨t', h1, h2, h3⟩
    · rw [if_neg h]
      have h' := (Bool.not_eq_true _).mp h
      constructor
      · rintro (h1 | ⟨t', h1, h2, h3⟩)
        · rcases List.mem_append.1 h1 with h1 | h1
          · exact .inl h1
          · exact .inr ⟨t, List.mem_cons_self, h', List.mem_singleton.1 h1⟩
        · exact .inr ⟨t', List.mem_cons_of_mem _ h1, h2, h3⟩
      · rintro (h1 | ⟨t', h1, h2, h3⟩)
        · exact .inl (List.mem_append_left _ h1)
        · rcases List.mem_cons.1 h1 with rfl | h1
          · exact .inl (List.mem_append_right _ (by simp [h3]))
          · exact .inr ⟨t', h1, h2, h3⟩

theorem totalCost_nonneg (hc : ∀ t, 0 ≤ cost t) (ts : List T) : 0 ≤ totalCost cost ts := by
  induction ts with
  | nil => simp [totalCost]
  | cons t ts ih => have := hc t; simp [totalCost] at ih ⊢; omega

/-- every path is covered by a closed state or by a cheaper open tuple -/
theorem cover (hl : Lawful sem ini) (hc : ∀ t, 0 ≤ cost t) {o : List (Tup S T)} {c : List S} {K : List (S × Int)}
    (h : Inv sem cost ini fin o c K) {ts : List T} {m : S} (hp : Path sem ini ts m) :
    (∃ k ∈ K, sem.eqv k.1 m = true ∧ k.2 ≤ totalCost cost ts) ∨ (∃ y ∈ o, y.g ≤ totalCost cost ts) := by
  induction hp with
  | nil =>
    rcases h.start with ⟨k, hk, h1, h2⟩ | ⟨y, hy, h1, h2⟩
    · exact .inl ⟨k, hk, h1, by simpa [totalCost] using h2⟩
    · exact .inr ⟨y, hy, by simpa [totalCost] using h2⟩
  | @snoc ts m t hp ht ih =>
    have e : totalCost cost (ts ++ [t]) = totalCost cost ts + cost t := by simp [totalCost]
    have := hc t
    rcases ih with ⟨k, hk, h1, h2⟩ | ⟨y, hy, h2⟩
    · have ht' := hl.enabled_congr _ _ hp.reachable (h.reach k hk) (hl.symm _ _ h1) t ht
      have hx := hl.exec_congr _ _ (h.reach k hk) hp.reachable h1 t ht'
      rcases h.succ k hk t ht' with ⟨k', hk', h3, h4⟩ | ⟨y, hy, h3, h4⟩
      · exact .inl ⟨k', hk', hl.trans _ _ _ h3 hx, by omega⟩
      · exact .inr ⟨y, hy, by omega⟩
    · exact .inr ⟨y, hy, by omega⟩

theorem cover_fin (hl : Lawful sem ini) (hc : ∀ t, 0 ≤ cost t) {o : List (Tup S T)} {c : List S} {K : List (S × Int)}
    (h : Inv sem cost ini fin o c K) {ts : List T} {m : S} (hp : Path sem ini ts m) (hf : sem.eqv m fin = true) :
    ∃ y ∈ o, y.g ≤ totalCost cost ts := by
  rcases cover hl hc h hp with ⟨k, hk, h1, _⟩ | h
  · have := h.notFin k hk
    rw [hl.trans _ _ _ h1 hf] at this; cases this
  · exact h

theorem lt_false {a b : Tup S T} (h : Tup.lt a b = false) : b.g ≤ a.g := by
  unfold Tup.lt at h
  split at h
  · cases h
  · omega

theorem step_inv (hl : Lawful sem ini) (hc : ∀ t, 0 ≤ cost t) (sch : Sched S T) (hs : sch.Ok) (n : Nat) (st : St S T)
    (h : SInv sem cost ini fin st) : SInv sem cost ini fin (searchStep sem cost fin sch n st) := by
  cases st with
  | found x => exact h
  | exhausted => exact h
  | running o c =>
    obtain ⟨K, h⟩ := h
    simp only [searchStep]
    cases o with
    | nil =>
      rw [hs.pop_nil]
      intro ts m hp
      rw [← Bool.not_eq_true]; intro hf
      obtain ⟨y, hy, _⟩ := cover_fin hl hc h hp hf
      cases hy
    | cons z o' =>
      obtain ⟨curr, rest, hpop, hperm, hmin⟩ := hs.pop_cons n (z :: o') (by simp)
      generalize hO : z :: o' = O at *
      rw [hpop]
      have hcurr : curr ∈ O := hperm.mem_iff.2 List.mem_cons_self
      have hrest : ∀ y ∈ rest, y ∈ O := fun y hy => hperm.mem_iff.2 (List.mem_cons_of_mem _ hy)
      have hO' : ∀ y ∈ O, y = curr ∨ y ∈ rest := fun y hy => List.mem_cons.1 (hperm.mem_iff.1 hy)
      have hv := h.valid curr hcurr
      simp only
      split
      · -- already closed
        rename_i hcl
        rw [← h.fst, List.any_map, List.any_eq_true] at hcl
        obtain ⟨k0, hk0, he0⟩ := hcl
        have hle := h.mono k0 hk0 curr hcurr
        refine ⟨K, h.fst, fun x hx => h.valid x (hrest x hx), h.reach, h.notFin, fun k hk x hx => h.mono k hk x (hrest x hx), ?_, ?_⟩
        · intro k hk t ht
          rcases h.succ k hk t ht with h1 | ⟨y, hy, h1, h2⟩
          · exact .inl h1
          · rcases hO' y hy with rfl | hy
            · exact .inl ⟨k0, hk0, hl.trans _ _ _ he0 h1, by omega⟩
            · exact .inr ⟨y, hy, h1, h2⟩
        · rcases h.start with h1 | ⟨y, hy, h1, h2⟩
          · exact .inl h1
          · rcases hO' y hy with rfl | hy
            · exact .inl ⟨k0, hk0, hl.trans _ _ _ he0 h1, by omega⟩
            · exact .inr ⟨y, hy, h1, h2⟩
      · rename_i hncl
        split
        · -- goal reached
          rename_i hfin
          refine ⟨hv, hfin, fun ts m hp hf => ?_⟩
          obtain ⟨y, hy, hle⟩ := cover_fin hl hc h hp hf
          rcases hO' y hy with rfl | hy
          · exact hle
          · have := lt_false (hmin y hy); omega
        · -- expansion
          rename_i hnfin
          refine ⟨K ++ [(curr.m, curr.g)], by simp [h.fst], ?_, ?_, ?_, ?_, ?_, ?_⟩
          · intro x hx
            rcases (mem_push _ _ _ _ _).1 hx with hx | ⟨t, ht, _, rfl⟩
            · exact h.valid x (hrest x hx)
            · exact .child hv ((hs.ord_perm n _).mem_iff.1 ht)
          · intro k hk
            rcases List.mem_append.1 hk with hk | hk
            · exact h.reach k hk
            · rw [List.mem_singleton.1 hk]; exact hv.path.1.reachable
          · intro k hk
            rcases List.mem_append.1 hk with hk | hk
            · exact h.notFin k hk
            · rw [List.mem_singleton.1 hk]; simpa using hnfin
          · intro k hk x hx
            have h1 : k.2 ≤ curr.g := by
              rcases List.mem_append.1 hk with hk | hk
              · exact h.mono k hk curr hcurr
              · rw [List.mem_singleton.1 hk]; exact Int.le_refl _
            rcases (mem_push _ _ _ _ _).1 hx with hx | ⟨t, ht, _, rfl⟩
            · have := lt_false (hmin x hx); omega
            · have := hc t; simp only [Tup.g]; show k.2 ≤ curr.g + cost t; omega
          · intro k hk t ht
            rcases List.mem_append.1 hk with hk | hk
            · rcases h.succ k hk t ht with ⟨k', hk', h1⟩ | ⟨y, hy, h1, h2⟩
              · exact .inl ⟨k', List.mem_append_left _ hk', h1⟩
              · rcases hO' y hy with rfl | hy
                · exact .inl ⟨(y.m, y.g), by simp, h1, h2⟩
                · exact .inr ⟨y, (mem_push _ _ _ _ _).2 (.inl hy), h1, h2⟩
            · have hk := List.mem_singleton.1 hk
              subst hk
              have hct := hc t
              by_cases hcl : ((c ++ [curr.m]).any fun c => sem.eqv c (sem.exec t curr.m)) = true
              · left
                rw [List.any_append, Bool.or_eq_true] at hcl
                rcases hcl with hcl | hcl
                · rw [← h.fst, List.any_map, List.any_eq_true] at hcl
                  obtain ⟨k0, hk0, he0⟩ := hcl
                  have := h.mono k0 hk0 curr hcurr
                  exact ⟨k0, List.mem_append_left _ hk0, he0, by simp only; omega⟩
                · exact ⟨(curr.m, curr.g), by simp, by simpa using hcl, by simp only; omega⟩
              · right
                exact ⟨_, (mem_push _ _ _ _ _).2 (.inr ⟨t, (hs.ord_perm n _).mem_iff.2 ht, by simpa using hcl, rfl⟩),
                  hl.refl _, Int.le_refl _⟩
          · rcases h.start with ⟨k', hk', h1⟩ | ⟨y, hy, h1, h2⟩
            · exact .inl ⟨k', List.mem_append_left _ hk', h1⟩
            · rcases hO' y hy with rfl | hy
              · exact .inl ⟨(y.m, y.g), by simp, h1, h2⟩
              · exact .inr ⟨y, (mem_push _ _ _ _ _).2 (.inl hy), h1, h2⟩

theorem search_inv (hl : Lawful sem ini) (hc : ∀ t, 0 ≤ cost t) (sch : Sched S T) (hs : sch.Ok) (n : Nat) :
    SInv sem cost ini fin (search sem cost ini fin sch n) := by
  induction n with
  | zero =>
    refine ⟨[], rfl, ?_, by simp, by simp, by simp, by simp, .inr ⟨.root ini, by simp, hl.refl _, by simp [Tup.g]⟩⟩
    intro x hx; rw [List.mem_singleton.1 hx]; exact .root
  | succ n ih => exact step_inv hl hc sch hs n _ ih

/-! ### Termination -/

/-- the loop has ended -/
def St.Done : St S T → Prop
  | .running _ _ => False
  | _ => True

theorem done_of_measure (sch : Sched S T) (μ : List (Tup S T) → List S → Nat)
    (h : ∀ n o c o' c', search sem cost ini fin sch n = .running o c → search sem cost ini fin sch (n + 1) = .running o' c' →
      μ o' c' < μ o c) : ∃ n, (search sem cost ini fin sch n).Done := by
  have key : ∀ k n o c, search sem cost ini fin sch n = .running o c → μ o c ≤ k → ∃ n, (search sem cost ini fin sch n).Done := by
    intro k
    induction k with
    | zero =>
      intro n o c h1 h2
      cases h3 : search sem cost ini fin sch (n + 1) with
      | running o' c' => have := h n o c o' c' h1 h3; omega
      | found x => exact ⟨n + 1, by rw [h3]; trivial⟩
      | exhausted => exact ⟨n + 1, by rw [h3]; trivial⟩
    | succ k ih =>
      intro n o c h1 h2
      cases h3 : search sem cost ini fin sch (n + 1) with
      | running o' c' => have := h n o c o' c' h1 h3; exact ih (n + 1) o' c' h3 (by omega)
      | found x => exact ⟨n + 1, by rw [h3]; trivial⟩
      | exhausted => exact ⟨n + 1, by rw [h3]; trivial⟩
  exact key _ 0 _ _ rfl (Nat.le_refl _)

/-- the tuples pushed in one expansion -/
def pushed (sem : Sem S T) (cost : T → Int) (closed : List S) (curr : Tup S T) (l : List T) : List (Tup S T) :=
  (l.filter fun t => !closed.any fun c => sem.eqv c (sem.exec t curr.m)).map fun t =>
    Tup.child (curr.g + cost t) (sem.exec t curr.m) curr t (curr.l + 1)

theorem push_eq (closed : List S) (curr : Tup S T) (l : List T) (o : List (Tup S T)) :
    l.foldl (fun o t =>
        if closed.any fun c => sem.eqv c (sem.exec t curr.m) then o
        else o ++ [Tup.child (curr.g + cost t) (sem.exec t curr.m) curr t (curr.l + 1)]) o = o ++ pushed sem cost closed curr l := by
  induction l generalizing o with
  | nil => simp [pushed]
  | cons t l ih =>
    rw [List.foldl_cons, ih]
    by_cases h : (closed.any fun c => sem.eqv c (sem.exec t curr.m)) = true
    · rw [if_pos h]; simp [pushed, h]
    · rw [if_neg h]
      have h' := (Bool.not_eq_true _).mp h
      simp [pushed, h']

/-- what one iteration that stays in the loop does -/
theorem step_cases (sch : Sched S T) (hs : sch.Ok) (n : Nat) {o o' : List (Tup S T)} {c c' : List S}
    (h : searchStep sem cost fin sch n (.running o c) = .running o' c') :
    ∃ curr rest, o.Perm (curr :: rest) ∧ (∀ y ∈ rest, Tup.lt y curr = false) ∧
      ((c' = c ∧ o' = rest) ∨
       ((c.any fun x => sem.eqv x curr.m) = false ∧ c' = c ++ [curr.m] ∧
          o' = rest ++ pushed sem cost c' curr (sch.ord n (sem.enabled curr.m)))) := by
  cases o with
  | nil => simp only [searchStep, hs.pop_nil] at h; cases h
  | cons z o1 =>
    obtain ⟨curr, rest, hpop, hperm, hmin⟩ := hs.pop_cons n (z :: o1) (by simp)
    refine ⟨curr, rest, hperm, hmin, ?_⟩
    simp only [searchStep, hpop] at h
    split at h
    · simp only [St.running.injEq] at h; exact .inl ⟨h.2.symm, h.1.symm⟩
    · split at h
      · cases h
      · rename_i h1 _
        rw [push_eq] at h
        simp only [St.running.injEq] at h
        obtain ⟨h2, h3⟩ := h
        subst h3
        exact .inr ⟨by simpa using h1, rfl, h2.symm⟩

theorem countP_lt {X : Type} (l : List X) (p q : X → Bool) (h : ∀ x ∈ l, q x = true → p x = true) (x : X) (hx : x ∈ l)
    (h1 : p x = true) (h2 : q x = false) : l.countP q < l.countP p := by
  induction l with
  | nil => cases hx
  | cons y l ih =>
    rw [List.countP_cons, List.countP_cons]
    have hle : l.countP q ≤ l.countP p := List.countP_mono_left fun z hz => h z (List.mem_cons_of_mem _ hz)
    rcases List.mem_cons.1 hx with rfl | hx
    · rw [h1, h2]; simp; omega
    · have := ih (fun z hz => h z (List.mem_cons_of_mem _ hz)) hx
      have h3 := h y List.mem_cons_self
      by_cases hq : q y = true
      · rw [hq, h3 hq]; simp; omega
      · have hq' : q y = false := by simpa using hq
        rw [hq']; simp only [Bool.false_eq_true, if_false]; omega

theorem pushed_length (closed : List S) (curr : Tup S T) (l : List T) : (pushed sem cost closed curr l).length ≤ l.length := by
  unfold pushed; rw [List.length_map]; exact List.length_filter_le _ _

/-- the loop ends on every finite state space -/
theorem terminates_finite (hl : Lawful sem ini) (hc : ∀ t, 0 ≤ cost t) (sch : Sched S T) (hs : sch.Ok) (L : List S)
    (hL : ∀ m, Reachable sem ini m → ∃ x ∈ L, sem.eqv x m = true) (B : Nat)
    (hB : ∀ m, Reachable sem ini m → (sem.enabled m).length ≤ B) : ∃ n, (search sem cost ini fin sch n).Done := by
  refine done_of_measure sch
    (fun o c => o.length + (B + 1) * L.countP fun x => !c.any fun y => sem.eqv y x) ?_
  intro n o c o' c' h1 h2
  have hi := search_inv (fin := fin) hl hc sch hs n
  rw [h1] at hi
  obtain ⟨K, hi⟩ := hi
  rw [search, h1] at h2
  obtain ⟨curr, rest, hperm, _, h | ⟨hncl, rfl, rfl⟩⟩ := step_cases sch hs n h2
  · obtain ⟨rfl, rfl⟩ := h
    have := hperm.length_eq
    simp only [List.length_cons] at this ⊢; omega
  · have hr : Reachable sem ini curr.m := (hi.valid curr (hperm.mem_iff.2 List.mem_cons_self)).path.1.reachable
    obtain ⟨x, hx, hxe⟩ := hL _ hr
    have hlt : (L.countP fun x => !(c ++ [curr.m]).any fun y => sem.eqv y x) < L.countP fun x => !c.any fun y => sem.eqv y x := by
      refine countP_lt _ _ _ ?_ x hx ?_ ?_
      · intro z _ hz; simp only [List.any_append, Bool.not_or, Bool.and_eq_true] at hz; exact hz.1
      · rw [Bool.not_eq_true', ← Bool.not_eq_true, List.any_eq_true]
        rintro ⟨y, hy, hye⟩
        rw [← Bool.not_eq_true, List.any_eq_true] at hncl
        exact hncl ⟨y, hy, hl.trans _ _ _ hye hxe⟩
      · simp [hl.symm _ _ hxe]
    have h3 := hperm.length_eq
    have h4 := pushed_length (sem := sem) (cost := cost) (c ++ [curr.m]) curr (sch.ord n (sem.enabled curr.m))
    have h5 := (hs.ord_perm n (sem.enabled curr.m)).length_eq
    have h6 := hB _ hr
    have h7 := Nat.mul_le_mul_left (B + 1) (Nat.succ_le_of_lt hlt)
    rw [Nat.mul_succ] at h7
    simp only [List.length_cons, List.length_append] at h3 ⊢
    omega

/-- weight of an open tuple in the second termination argument -/
def weight (B N : Nat) (x : Tup S T) : Nat := if x.l ≤ N then (B + 1) ^ (N - x.l) else 0

/-- the loop ends as soon as there is a path to the goal and paths of at most that cost have bounded length (the state
space may be infinite) -/
theorem terminates_bounded (hl : Lawful sem ini) (hc : ∀ t, 0 ≤ cost t) (sch : Sched S T) (hs : sch.Ok)
    (ts0 : List T) (m0 : S) (hp0 : Path sem ini ts0 m0) (hf0 : sem.eqv m0 fin = true) (N : Nat)
    (hN : ∀ ts m, Path sem ini ts m → totalCost cost ts ≤ totalCost cost ts0 → ts.length ≤ N) (B : Nat)
    (hB : ∀ m, Reachable sem ini m → (sem.enabled m).length ≤ B) : ∃ n, (search sem cost ini fin sch n).Done := by
  refine done_of_measure sch (fun o _ => (o.map (weight B N)).sum) ?_
  intro n o c o' c' h1 h2
  have hi := search_inv (fin := fin) hl hc sch hs n
  rw [h1] at hi
  obtain ⟨K, hi⟩ := hi
  rw [search, h1] at h2
  obtain ⟨curr, rest, hperm, hmin, hcase⟩ := step_cases sch hs n h2
  have hv := hi.valid curr (hperm.mem_iff.2 List.mem_cons_self)
  have hr : Reachable sem ini curr.m := hv.path.1.reachable
  have hle : curr.l ≤ N := by
    obtain ⟨y, hy, hyg⟩ := cover_fin hl hc hi hp0 hf0
    have : curr.g ≤ y.g := by
      rcases List.mem_cons.1 (hperm.mem_iff.1 hy) with rfl | hy
      · exact Int.le_refl _
      · exact lt_false (hmin y hy)
    rw [hv.path.2.2]
    refine hN _ _ hv.path.1 ?_
    rw [← hv.path.2.1]; omega
  have hsum : (o.map (weight B N)).sum = weight B N curr + (rest.map (weight B N)).sum := by
    rw [(hperm.map (weight B N)).sum_nat]; simp
  have hw : weight B N curr = (B + 1) ^ (N - curr.l) := by simp [weight, hle]
  have hpos : 0 < (B + 1) ^ (N - curr.l) := Nat.pow_pos (by omega)
  rcases hcase with ⟨rfl, rfl⟩ | ⟨_, rfl, rfl⟩
  · omega
  · rw [List.map_append, List.sum_append_nat, hsum, hw]
    have hlen : (pushed sem cost (c ++ [curr.m]) curr (sch.ord n (sem.enabled curr.m))).length ≤ B := by
      have h4 := pushed_length (sem := sem) (cost := cost) (c ++ [curr.m]) curr (sch.ord n (sem.enabled curr.m))
      have h5 := (hs.ord_perm n (sem.enabled curr.m)).length_eq
      have h6 := hB _ hr
      omega
    have hall : ∀ x ∈ pushed sem cost (c ++ [curr.m]) curr (sch.ord n (sem.enabled curr.m)),
        weight B N x = if curr.l + 1 ≤ N then (B + 1) ^ (N - (curr.l + 1)) else 0 := by
      intro x hx
      unfold pushed at hx
      obtain ⟨t, _, rfl⟩ := List.mem_map.1 hx
      rfl
    generalize pushed sem cost (c ++ [curr.m]) curr (sch.ord n (sem.enabled curr.m)) = l at hlen hall
    have hsum' : (l.map (weight B N)).sum = l.length * if curr.l + 1 ≤ N then (B + 1) ^ (N - (curr.l + 1)) else 0 := by
      clear hlen
      induction l with
      | nil => simp
      | cons x l ih =>
        rw [List.map_cons, List.sum_cons, ih (fun y hy => hall y (List.mem_cons_of_mem _ hy)), hall x List.mem_cons_self,
          List.length_cons, Nat.succ_mul]
        omega
    rw [hsum']
    split
    · rename_i hlt
      have e : (B + 1) ^ (N - curr.l) = (B + 1) * (B + 1) ^ (N - (curr.l + 1)) := by
        rw [show N - curr.l = (N - (curr.l + 1)) + 1 by omega, Nat.pow_succ, Nat.mul_comm]
      have hp' : 0 < (B + 1) ^ (N - (curr.l + 1)) := Nat.pow_pos (by omega)
      have := Nat.mul_le_mul_right ((B + 1) ^ (N - (curr.l + 1))) hlen
      rw [e, Nat.succ_mul]
      omega
    · simp; omega
end
end Align
end Verif
