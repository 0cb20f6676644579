import Verif.Align.Theorems
/-
C66: the search for the markings reached by a prefix,
/repo/pm4py/algo/evaluation/precision/utils.py:28-103 (`__search`), variants/align_etconformance.py:138-186, 230-253, 296-342.
-/
set_option linter.unusedSectionVars false
namespace Verif
open Dict Reach Align
namespace Precision

/-! ### The loop over an abstract state space -/
section
variable {S T : Type}

/-- what `heapq.heappop` takes out in iteration `n`, and the iteration order of the set `enabled_trans` -/
structure Sched (S T : Type) where
  pop : Nat → List (Tup S T) → Option (Tup S T × List (Tup S T))
  ord : Nat → List T → List T

/-- `SearchTuple.__lt__` (align_utils.py:314-322) on the tuples of this search: `f = g`, `h = 0` and `trust` is always
`True` -/
def before (a b : Tup S T) : Bool := decide (a.g < b.g)

/-- contract of `heapq` and of set iteration -/
structure Sched.Ok (sch : Sched S T) : Prop where
  pop_nil : ∀ n, sch.pop n [] = none
  pop_cons : ∀ n l, l ≠ [] → ∃ x rest, sch.pop n l = some (x, rest) ∧ l.Perm (x :: rest) ∧ ∀ y ∈ rest, before y x = false
  ord_perm : ∀ n l, (sch.ord n l).Perm l

/-- state of `__search`: `open_set`, `closed`, `ret_markings`, `optimal_cost`; or the returned value -/
inductive PSt (S T : Type)
  | running (openSet : List (Tup S T)) (closed : List S) (ret : Option (List S)) (opt : Option Int)
  | done (ret : Option (List S))

/-- `optimal_cost is not None and curr.f > optimal_cost` (utils.py:56) -/
def exceeds (opt : Option Int) (g : Int) : Bool := match opt with | some q => decide (q < g) | none => false

/-- one iteration of the `while` loop (utils.py:49-101).  `stop m` is `stop <= m`. -/
def pStep (sem : Sem S T) (cost : T → Int) (stop : S → Bool) (sch : Sched S T) (n : Nat) : PSt S T → PSt S T
  | .running openSet closed ret opt =>
    match sch.pop n openSet with
    | none => .done ret
    | some (curr, rest) =>
      if exceeds opt curr.g then .done ret
      else if closed.any fun c => sem.eqv c curr.m then .running rest closed ret opt
      else if stop curr.m then
        .running rest (closed ++ [curr.m]) (some (ret.getD [] ++ [curr.m])) (some curr.g)
      else
        let closed := closed ++ [curr.m]
        .running
          ((sch.ord n (sem.enabled curr.m)).foldl
            (fun o t =>
              if closed.any fun c => sem.eqv c (sem.exec t curr.m) then o
              else o ++ [Tup.child (curr.g + cost t) (sem.exec t curr.m) curr t (curr.l + 1)])
            rest)
          closed ret opt
  | s => s

/-- `__search` after `n` iterations -/
def pSearch (sem : Sem S T) (cost : T → Int) (stop : S → Bool) (ini : S) (sch : Sched S T) : Nat → PSt S T
  | 0 => .running [.root ini] [] none none
  | n + 1 => pStep sem cost stop sch n (pSearch sem cost stop ini sch n)

variable (sem : Sem S T) (cost : T → Int) (stop : S → Bool) (ini : S)

/-- loop invariant; `K` records, for every closed state, the cost at which it was closed -/
structure PInv (o : List (Tup S T)) (closed : List S) (ret : Option (List S)) (opt : Option Int) (K : List (S × Int)) : Prop where
  fst : K.map Prod.fst = closed
  valid : ∀ x ∈ o, Valid sem cost ini x
  path : ∀ k ∈ K, ∃ ts, Path sem ini ts k.1 ∧ totalCost cost ts = k.2
  mono : ∀ k ∈ K, ∀ x ∈ o, k.2 ≤ x.g
  succ : ∀ k ∈ K, stop k.1 = false → ∀ t ∈ sem.enabled k.1,
    (∃ k' ∈ K, sem.eqv k'.1 (sem.exec t k.1) = true ∧ k'.2 ≤ k.2 + cost t) ∨
    (∃ y ∈ o, sem.eqv y.m (sem.exec t k.1) = true ∧ y.g ≤ k.2 + cost t)
  start : (∃ k ∈ K, sem.eqv k.1 ini = true ∧ k.2 ≤ 0) ∨ (∃ y ∈ o, sem.eqv y.m ini = true ∧ y.g ≤ 0)
  retOpt : ret = none ↔ opt = none
  stops : ∀ q, opt = some q → ∀ k ∈ K, stop k.1 = true → k.2 = q
  noStop : opt = none → ∀ k ∈ K, stop k.1 = false
  inRet : ∀ l, ret = some l → (∀ k ∈ K, stop k.1 = true → k.1 ∈ l) ∧ (∀ x ∈ l, stop x = true ∧ ∃ k ∈ K, k.1 = x) ∧ l ≠ []

/-- what the returned value means -/
def PResult : Option (List S) → Prop
  | none => ∀ ts m, Path sem ini ts m → stop m = false
  | some l => l ≠ [] ∧ ∃ q, (∀ x ∈ l, stop x = true ∧ ∃ ts, Path sem ini ts x ∧ totalCost cost ts = q) ∧
      ∀ ts m, Path sem ini ts m → stop m = true → q ≤ totalCost cost ts ∧ (totalCost cost ts = q → ∃ x ∈ l, sem.eqv x m = true)

/-- invariant of the state of the search -/
def PSInv : PSt S T → Prop
  | .running o c r q => ∃ K, PInv sem cost stop ini o c r q K
  | .done r => PResult sem cost stop ini r

variable {sem cost stop ini}

theorem before_false {a b : Tup S T} (h : before a b = false) : b.g ≤ a.g := by
  simp only [before, decide_eq_false_iff_not] at h; omega

/-- every path is covered by a closed state, an open tuple, or costs more than a stop state already found -/
theorem pcover (hl : Lawful sem ini) (hc : ∀ t, 0 ≤ cost t)
    (hst : ∀ m, Reachable sem ini m → stop m = true → ∀ t ∈ sem.enabled m, 0 < cost t)
    {o : List (Tup S T)} {c : List S} {r : Option (List S)} {q : Option Int} {K : List (S × Int)}
    (h : PInv sem cost stop ini o c r q K) {ts : List T} {m : S} (hp : Path sem ini ts m) :
    (∃ k ∈ K, sem.eqv k.1 m = true ∧ k.2 ≤ totalCost cost ts) ∨ (∃ y ∈ o, y.g ≤ totalCost cost ts) ∨
      (∃ k ∈ K, stop k.1 = true ∧ k.2 < totalCost cost ts) := by
  induction hp with
  | nil =>
    rcases h.start with ⟨k, hk, h1, h2⟩ | ⟨y, hy, h1, h2⟩
    · exact .inl ⟨k, hk, h1, by simpa [totalCost] using h2⟩
    · exact .inr (.inl ⟨y, hy, by simpa [totalCost] using h2⟩)
  | @snoc ts m t hp ht ih =>
    have e : totalCost cost (ts ++ [t]) = totalCost cost ts + cost t := by simp [totalCost]
    have := hc t
    rcases ih with ⟨k, hk, h1, h2⟩ | ⟨y, hy, h2⟩ | ⟨k, hk, h1, h2⟩
    · obtain ⟨tk, hpk, _⟩ := h.path k hk
      have ht' := hl.enabled_congr _ _ hp.reachable hpk.reachable (hl.symm _ _ h1) t ht
      have hx := hl.exec_congr _ _ hpk.reachable hp.reachable h1 t ht'
      by_cases hs : stop k.1 = true
      · have := hst _ hpk.reachable hs t ht'
        exact .inr (.inr ⟨k, hk, hs, by omega⟩)
      · rcases h.succ k hk (by simpa using hs) t ht' with ⟨k', hk', h3, h4⟩ | ⟨y, hy, h3, h4⟩
        · exact .inl ⟨k', hk', hl.trans _ _ _ h3 hx, by omega⟩
        · exact .inr (.inl ⟨y, hy, by omega⟩)
    · exact .inr (.inl ⟨y, hy, by omega⟩)
    · exact .inr (.inr ⟨k, hk, h1, by omega⟩)

theorem pfinish (hl : Lawful sem ini) (hc : ∀ t, 0 ≤ cost t)
    (hst : ∀ m, Reachable sem ini m → stop m = true → ∀ t ∈ sem.enabled m, 0 < cost t)
    (hcg : ∀ a b, Reachable sem ini a → Reachable sem ini b → sem.eqv a b = true → stop a = stop b)
    {o : List (Tup S T)} {c : List S} {r : Option (List S)} {q : Option Int} {K : List (S × Int)}
    (h : PInv sem cost stop ini o c r q K) (ho : ∀ y ∈ o, ∃ q', q = some q' ∧ q' < y.g) :
    PResult sem cost stop ini r := by
  cases q with
  | none =>
    rw [h.retOpt.2 rfl]
    intro ts m hp
    rw [← Bool.not_eq_true]; intro hm
    rcases pcover hl hc hst h hp with ⟨k, hk, h1, _⟩ | ⟨y, hy, _⟩ | ⟨k, hk, h1, _⟩
    · obtain ⟨tk, hpk, _⟩ := h.path k hk
      have := hcg _ _ hpk.reachable hp.reachable h1
      rw [h.noStop rfl k hk, hm] at this; cases this
    · obtain ⟨_, hq, _⟩ := ho y hy; cases hq
    · rw [h.noStop rfl k hk] at h1; cases h1
  | some q =>
    cases r with
    | none => have := h.retOpt.1 rfl; cases this
    | some l =>
      obtain ⟨hl1, hl2, hl3⟩ := h.inRet l rfl
      refine ⟨hl3, q, ?_, ?_⟩
      · intro x hx
        obtain ⟨h1, k, hk, rfl⟩ := hl2 x hx
        obtain ⟨tk, hpk, hck⟩ := h.path k hk
        exact ⟨h1, tk, hpk, by rw [hck]; exact h.stops q rfl k hk h1⟩
      · intro ts m hp hm
        rcases pcover hl hc hst h hp with ⟨k, hk, h1, h2⟩ | ⟨y, hy, h2⟩ | ⟨k, hk, h1, h2⟩
        · obtain ⟨tk, hpk, _⟩ := h.path k hk
          have hks : stop k.1 = true := by rw [hcg _ _ hpk.reachable hp.reachable h1]; exact hm
          have := h.stops q rfl k hk hks
          exact ⟨by omega, fun _ => ⟨k.1, hl1 k hk hks, h1⟩⟩
        · obtain ⟨q', hq, hlt⟩ := ho y hy
          have hqq : q = q' := by simpa using hq
          exact ⟨by omega, fun _ => by omega⟩
        · have := h.stops q rfl k hk h1
          exact ⟨by omega, fun _ => by omega⟩

theorem pstep_inv (hl : Lawful sem ini) (hc : ∀ t, 0 ≤ cost t)
    (hst : ∀ m, Reachable sem ini m → stop m = true → ∀ t ∈ sem.enabled m, 0 < cost t)
    (hcg : ∀ a b, Reachable sem ini a → Reachable sem ini b → sem.eqv a b = true → stop a = stop b)
    (sch : Sched S T) (hs : sch.Ok) (n : Nat) (st : PSt S T)
    (h : PSInv sem cost stop ini st) : PSInv sem cost stop ini (pStep sem cost stop sch n st) := by
  cases st with
  | done r => exact h
  | running o c r q =>
    obtain ⟨K, h⟩ := h
    simp only [pStep]
    cases o with
    | nil =>
      rw [hs.pop_nil]
      exact pfinish hl hc hst hcg h (by simp)
    | cons z o' =>
      obtain ⟨curr, rest, hpop, hperm, hmin⟩ := hs.pop_cons n (z :: o') (by simp)
      generalize hO : z :: o' = O at *
      rw [hpop]
      have hcurr : curr ∈ O := hperm.mem_iff.2 List.mem_cons_self
      have hrest : ∀ y ∈ rest, y ∈ O := fun y hy => hperm.mem_iff.2 (List.mem_cons_of_mem _ hy)
      have hO' : ∀ y ∈ O, y = curr ∨ y ∈ rest := fun y hy => List.mem_cons.1 (hperm.mem_iff.1 hy)
      have hv := h.valid curr hcurr
      simp only
      split
      · -- too expensive
        rename_i hbr
        refine pfinish hl hc hst hcg h ?_
        cases q with
        | none => simp [exceeds] at hbr
        | some q =>
          simp only [exceeds, decide_eq_true_eq] at hbr
          intro y hy
          refine ⟨q, rfl, ?_⟩
          rcases hO' y hy with rfl | hy
          · exact hbr
          · have := before_false (hmin y hy); omega
      · rename_i hnbr
        split
        · -- already closed
          rename_i hcl
          rw [← h.fst, List.any_map, List.any_eq_true] at hcl
          obtain ⟨k0, hk0, he0⟩ := hcl
          have hle := h.mono k0 hk0 curr hcurr
          refine ⟨K, h.fst, fun x hx => h.valid x (hrest x hx), h.path, fun k hk x hx => h.mono k hk x (hrest x hx), ?_, ?_,
            h.retOpt, h.stops, h.noStop, h.inRet⟩
          · intro k hk hks t ht
            rcases h.succ k hk hks t ht with h1 | ⟨y, hy, h1, h2⟩
            · exact .inl h1
            · rcases hO' y hy with rfl | hy
              · exact .inl ⟨k0, hk0, hl.trans _ _ _ he0 h1, by omega⟩
              · exact .inr ⟨y, hy, h1, h2⟩
          · rcases h.start with h1 | ⟨y, hy, h1, h2⟩
            · exact .inl h1
            · rcases hO' y hy with rfl | hy
              · exact .inl ⟨k0, hk0, hl.trans _ _ _ he0 h1, by omega⟩
              · exact .inr ⟨y, hy, h1, h2⟩
        · rename_i hncl
          have hpath : ∀ k ∈ K ++ [(curr.m, curr.g)], ∃ ts, Path sem ini ts k.1 ∧ totalCost cost ts = k.2 := by
            intro k hk
            rcases List.mem_append.1 hk with hk | hk
            · exact h.path k hk
            · rw [List.mem_singleton.1 hk]; exact ⟨_, hv.path.1, hv.path.2.1.symm⟩
          split
          · -- a stop marking
            rename_i hstop
            have hmono : ∀ k ∈ K ++ [(curr.m, curr.g)], ∀ x ∈ rest, k.2 ≤ x.g := by
              intro k hk x hx
              rcases List.mem_append.1 hk with hk | hk
              · exact h.mono k hk x (hrest x hx)
              · rw [List.mem_singleton.1 hk]; exact before_false (hmin x hx)
            refine ⟨K ++ [(curr.m, curr.g)], by simp [h.fst], fun x hx => h.valid x (hrest x hx), hpath, hmono, ?_, ?_,
              by simp, ?_, by simp, ?_⟩
            · intro k hk hks t ht
              rcases List.mem_append.1 hk with hk | hk
              · rcases h.succ k hk hks t ht with ⟨k', hk', h1⟩ | ⟨y, hy, h1, h2⟩
                · exact .inl ⟨k', List.mem_append_left _ hk', h1⟩
                · rcases hO' y hy with rfl | hy
                  · exact .inl ⟨(y.m, y.g), by simp, h1, h2⟩
                  · exact .inr ⟨y, hy, h1, h2⟩
              · rw [List.mem_singleton.1 hk] at hks; rw [hstop] at hks; cases hks
            · rcases h.start with ⟨k', hk', h1⟩ | ⟨y, hy, h1, h2⟩
              · exact .inl ⟨k', List.mem_append_left _ hk', h1⟩
              · rcases hO' y hy with rfl | hy
                · exact .inl ⟨(y.m, y.g), by simp, h1, h2⟩
                · exact .inr ⟨y, hy, h1, h2⟩
            · intro q' hq' k hk hks
              simp only [Option.some.injEq] at hq'
              subst hq'
              rcases List.mem_append.1 hk with hk | hk
              · cases q with
                | none => rw [h.noStop rfl k hk] at hks; cases hks
                | some q =>
                  simp only [exceeds, decide_eq_true_eq] at hnbr
                  have h1 := h.stops q rfl k hk hks
                  have h2 := h.mono k hk curr hcurr
                  omega
              · rw [List.mem_singleton.1 hk]
            · intro l hlr
              simp only [Option.some.injEq] at hlr
              subst hlr
              refine ⟨?_, ?_, by simp⟩
              · intro k hk hks
                rcases List.mem_append.1 hk with hk | hk
                · cases r with
                  | none => rw [h.noStop (h.retOpt.1 rfl) k hk] at hks; cases hks
                  | some l => exact List.mem_append_left _ ((h.inRet l rfl).1 k hk hks)
                · rw [List.mem_singleton.1 hk]; simp
              · intro x hx
                rcases List.mem_append.1 hx with hx | hx
                · cases r with
                  | none => simp at hx
                  | some l =>
                    obtain ⟨h1, k, hk, h2⟩ := (h.inRet l rfl).2.1 x hx
                    exact ⟨h1, k, List.mem_append_left _ hk, h2⟩
                · rw [List.mem_singleton.1 hx]
                  exact ⟨hstop, (curr.m, curr.g), by simp, rfl⟩
          · -- expansion
            rename_i hnstop
            have hnstop' : stop curr.m = false := by simpa using hnstop
            refine ⟨K ++ [(curr.m, curr.g)], by simp [h.fst], ?_, hpath, ?_, ?_, ?_, h.retOpt, ?_, ?_, ?_⟩
            · intro x hx
              rcases (mem_push _ _ _ _ _).1 hx with hx | ⟨t, ht, _, rfl⟩
              · exact h.valid x (hrest x hx)
              · exact .child hv ((hs.ord_perm n _).mem_iff.1 ht)
            · intro k hk x hx
              have h1 : k.2 ≤ curr.g := by
                rcases List.mem_append.1 hk with hk | hk
                · exact h.mono k hk curr hcurr
                · rw [List.mem_singleton.1 hk]; exact Int.le_refl _
              rcases (mem_push _ _ _ _ _).1 hx with hx | ⟨t, ht, _, rfl⟩
              · have := before_false (hmin x hx); omega
              · have := hc t; simp only [Tup.g]; show k.2 ≤ curr.g + cost t; omega
            · intro k hk hks t ht
              rcases List.mem_append.1 hk with hk | hk
              · rcases h.succ k hk hks t ht with ⟨k', hk', h1⟩ | ⟨y, hy, h1, h2⟩
                · exact .inl ⟨k', List.mem_append_left _ hk', h1⟩
                · rcases hO' y hy with rfl | hy
                  · exact .inl ⟨(y.m, y.g), by simp, h1, h2⟩
                  · exact .inr ⟨y, (mem_push _ _ _ _ _).2 (.inl hy), h1, h2⟩
              · have hk := List.mem_singleton.1 hk
                subst hk
                have hct := hc t
                by_cases hcl : ((c ++ [curr.m]).any fun c => sem.eqv c (sem.exec t curr.m)) = true
                · left
                  rw [List.any_append, Bool.or_eq_true] at hcl
                  rcases hcl with hcl | hcl
                  · rw [← h.fst, List.any_map, List.any_eq_true] at hcl
                    obtain ⟨k0, hk0, he0⟩ := hcl
                    have := h.mono k0 hk0 curr hcurr
                    exact ⟨k0, List.mem_append_left _ hk0, he0, by simp only; omega⟩
                  · exact ⟨(curr.m, curr.g), by simp, by simpa using hcl, by simp only; omega⟩
                · right
                  exact ⟨_, (mem_push _ _ _ _ _).2 (.inr ⟨t, (hs.ord_perm n _).mem_iff.2 ht, by simpa using hcl, rfl⟩),
                    hl.refl _, Int.le_refl _⟩
            · rcases h.start with ⟨k', hk', h1⟩ | ⟨y, hy, h1, h2⟩
              · exact .inl ⟨k', List.mem_append_left _ hk', h1⟩
              · rcases hO' y hy with rfl | hy
                · exact .inl ⟨(y.m, y.g), by simp, h1, h2⟩
                · exact .inr ⟨y, (mem_push _ _ _ _ _).2 (.inl hy), h1, h2⟩
            · intro q' hq' k hk hks
              rcases List.mem_append.1 hk with hk | hk
              · exact h.stops q' hq' k hk hks
              · rw [List.mem_singleton.1 hk, hnstop'] at hks; cases hks
            · intro hq' k hk
              rcases List.mem_append.1 hk with hk | hk
              · exact h.noStop hq' k hk
              · rw [List.mem_singleton.1 hk]; exact hnstop'
            · intro l hlr
              obtain ⟨h1, h2, h3⟩ := h.inRet l hlr
              refine ⟨?_, ?_, h3⟩
              · intro k hk hks
                rcases List.mem_append.1 hk with hk | hk
                · exact h1 k hk hks
                · rw [List.mem_singleton.1 hk, hnstop'] at hks; cases hks
              · intro x hx
                obtain ⟨h4, k, hk, h5⟩ := h2 x hx
                exact ⟨h4, k, List.mem_append_left _ hk, h5⟩

theorem psearch_inv (hl : Lawful sem ini) (hc : ∀ t, 0 ≤ cost t)
    (hst : ∀ m, Reachable sem ini m → stop m = true → ∀ t ∈ sem.enabled m, 0 < cost t)
    (hcg : ∀ a b, Reachable sem ini a → Reachable sem ini b → sem.eqv a b = true → stop a = stop b)
    (sch : Sched S T) (hs : sch.Ok) (n : Nat) : PSInv sem cost stop ini (pSearch sem cost stop ini sch n) := by
  induction n with
  | zero =>
    refine ⟨[], rfl, ?_, by simp, by simp, by simp, .inr ⟨.root ini, by simp, hl.refl _, by simp [Tup.g]⟩, by simp, by simp,
      by simp, by simp⟩
    intro x hx; rw [List.mem_singleton.1 hx]; exact .root
  | succ n ih => exact pstep_inv hl hc hst hcg sch hs n _ ih
end
end Precision
end Verif
