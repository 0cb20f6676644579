import Verif.DfgAlign.Search
import Mathlib.Algebra.Order.Field.Rat
import Mathlib.Algebra.Order.Field.Basic
import Mathlib.Tactic.Linarith
/-
C52: the theorems on alignments of traces with directly-follows graphs.
-/
set_option linter.unusedSectionVars false
namespace Verif.DfgAlign
variable {α : Type} [DecidableEq α]

/-- the sequences of activities from a node to the end node -/
def Lang (G : Graph α) : Node α → List α → Prop
  | .fin, w => w = []
  | n, [] => Node.fin ∈ G.out n
  | n, a :: w => Node.act a ∈ G.out n ∧ Lang G (.act a) w

theorem out_act (G : Graph α) (a b : α) : Node.act b ∈ G.out (.act a) ↔ (a, b) ∈ G.dfg := by
  simp only [Graph.out, List.mem_append, List.mem_map, List.mem_filter]
  constructor
  · rintro (⟨e, ⟨he, h1⟩, h2⟩ | h)
    · have h3 : e.1 = a := by simpa using h1
      have h4 : e.2 = b := by simpa using h2
      rw [← h3, ← h4]; exact he
    · split at h <;> simp at h
  · intro h
    exact .inl ⟨(a, b), ⟨h, by simp⟩, rfl⟩

theorem out_fin (G : Graph α) (a : α) : Node.fin ∈ G.out (.act a) ↔ a ∈ G.ea := by
  simp only [Graph.out, List.mem_append, List.mem_map]
  constructor
  · rintro (⟨e, _, h2⟩ | h)
    · cases h2
    · split at h
      · assumption
      · simp at h
  · intro h; right; rw [if_pos h]; simp

theorem lang_act (G : Graph α) (w : List α) : ∀ a, Lang G (.act a) w ↔
    ((∃ b ∈ G.ea, (a :: w).getLast? = some b) ∧ ∀ (i : Nat) x y, (a :: w)[i]? = some x → (a :: w)[i + 1]? = some y → (x, y) ∈ G.dfg) := by
  induction w with
  | nil => intro a; simp [Lang, out_fin]
  | cons c w ih =>
    intro a
    simp only [Lang]
    rw [out_act, ih]
    constructor
    · rintro ⟨h1, ⟨b, hb, h2⟩, h3⟩
      refine ⟨⟨b, hb, by rw [List.getLast?_cons_cons]; exact h2⟩, fun i x y hx hy => ?_⟩
      cases i with
      | zero => simp at hx hy; rw [← hx, ← hy]; exact h1
      | succ i => exact h3 i x y (by simpa using hx) (by simpa using hy)
    · rintro ⟨⟨b, hb, h2⟩, h3⟩
      refine ⟨h3 0 a c rfl rfl, ⟨b, hb, by rw [List.getLast?_cons_cons] at h2; exact h2⟩, fun i x y hx hy => ?_⟩
      exact h3 (i + 1) x y (by simpa using hx) (by simpa using hy)

theorem lang_start (G : Graph α) (w : List α) : Lang G .start w ↔ G.Trace w := by
  cases w with
  | nil => simp [Lang, Graph.out, Graph.Trace, DfgNet.DfgTrace]
  | cons a w =>
    simp only [Lang, Graph.Trace, DfgNet.DfgTrace]
    rw [lang_act]
    simp [Graph.out]

/-- a step as a move -/
def Step.move : Step α → Option (Option α × Option α)
  | .sync a => some (some a, some a)
  | .model a => some (none, some a)
  | .fin => none
  | .log a => some (some a, none)

def moves (P : List (Step α)) : List (Option α × Option α) := P.filterMap Step.move

theorem moves_cons (s : Step α) (P : List (Step α)) : moves (s :: P) = moves [s] ++ moves P := List.filterMap_append (l := [s])

theorem moves_align (G : Graph α) (cs : Costs α) (P : List (Step α)) : ∀ n, Ok G n P → dest n P = .fin →
    Lang G n ((moves P).filterMap Prod.snd) ∧ IsAlignment (cons P) ((moves P).filterMap Prod.snd) (moves P) ∧
      alignCost cs (moves P) = rcost cs P := by
  induction P with
  | nil =>
    intro n _ hd
    have : n = .fin := hd
    subst this
    exact ⟨by simp [Lang, moves], ⟨fun m hm => (by cases hm), rfl, rfl⟩, rfl⟩
  | cons s P ih =>
    intro n hok hd
    obtain ⟨h1, ⟨h2, h3, h4⟩, h5⟩ := ih _ hok.2 hd
    have hcs : cons (s :: P) = cons [s] ++ cons P := cons_append [s] P
    have hrc : rcost cs (s :: P) = s.rcost cs + rcost cs P := by simp [rcost]
    have hn : ∀ x, x ∈ G.out n → n ≠ .fin := fun x hx => out_ne_fin hx
    cases s with
    | sync a =>
      have hm : moves (.sync a :: P) = (some a, some a) :: moves P := rfl
      refine ⟨?_, ⟨?_, ?_, rfl⟩, ?_⟩
      · rw [hm]
        have := hn _ hok.1
        cases n with
        | fin => exact absurd rfl this
        | start => exact ⟨hok.1, h1⟩
        | act b => exact ⟨hok.1, h1⟩
      · rw [hm]; intro m hmm
        rcases List.mem_cons.1 hmm with rfl | hmm
        · rfl
        · exact h2 m hmm
      · rw [hm, hcs, ← h3]; rfl
      · rw [hm, hrc, ← h5]; simp [alignCost, moveCost, Step.rcost]
    | model a =>
      have hm : moves (.model a :: P) = (none, some a) :: moves P := rfl
      refine ⟨?_, ⟨?_, ?_, rfl⟩, ?_⟩
      · rw [hm]
        have := hn _ hok.1
        cases n with
        | fin => exact absurd rfl this
        | start => exact ⟨hok.1, h1⟩
        | act b => exact ⟨hok.1, h1⟩
      · rw [hm]; intro m hmm
        rcases List.mem_cons.1 hmm with rfl | hmm
        · trivial
        · exact h2 m hmm
      · rw [hm, hcs, ← h3]; rfl
      · rw [hm, hrc, ← h5]; simp [alignCost, moveCost, Step.rcost]
    | fin =>
      have hm : moves (.fin :: P) = moves P := rfl
      refine ⟨?_, ⟨?_, ?_, rfl⟩, ?_⟩
      · rw [hm]
        have h0 : (moves P).filterMap Prod.snd = [] := by simpa [Step.next, Lang] using h1
        rw [h0]
        have := hn _ hok.1
        cases n with
        | fin => exact absurd rfl this
        | start => exact hok.1
        | act b => exact hok.1
      · rw [hm]; exact h2
      · rw [hm, hcs, ← h3]; rfl
      · rw [hm, hrc, ← h5]; simp [Step.rcost]
    | log a =>
      have hm : moves (.log a :: P) = (some a, none) :: moves P := rfl
      refine ⟨h1, ⟨?_, ?_, rfl⟩, ?_⟩
      · rw [hm]; intro m hmm
        rcases List.mem_cons.1 hmm with rfl | hmm
        · trivial
        · exact h2 m hmm
      · rw [hm, hcs, ← h3]; rfl
      · rw [hm, hrc, ← h5]; simp [alignCost, moveCost, Step.rcost]

theorem align_moves (G : Graph α) (cs : Costs α) (mvs : List (Option α × Option α)) : ∀ n, n ≠ .fin → (∀ m ∈ mvs, Legal m) →
    Lang G n (mvs.filterMap Prod.snd) → ∃ P, Ok G n P ∧ dest n P = .fin ∧ cons P = mvs.filterMap Prod.fst ∧ rcost cs P = alignCost cs mvs := by
  induction mvs with
  | nil =>
    intro n hn _ h
    refine ⟨[.fin], ⟨?_, trivial⟩, rfl, rfl, rfl⟩
    cases n with
    | fin => exact absurd rfl hn
    | start => exact h
    | act b => exact h
  | cons m mvs ih =>
    intro n hn hl h
    have hl' : ∀ m ∈ mvs, Legal m := fun x hx => hl x (List.mem_cons_of_mem _ hx)
    have hm := hl m (List.mem_cons_self ..)
    have split : ∀ a, Lang G n (a :: mvs.filterMap Prod.snd) → Node.act a ∈ G.out n ∧ Lang G (.act a) (mvs.filterMap Prod.snd) := by
      intro a h
      cases n with
      | fin => exact absurd rfl hn
      | start => exact h
      | act b => exact h
    obtain ⟨x, y⟩ := m
    cases x with
    | none =>
      cases y with
      | none => exact absurd hm id
      | some b =>
        obtain ⟨h1, h2⟩ := split b h
        obtain ⟨P, p1, p2, p3, p4⟩ := ih (.act b) (fun h => by cases h) hl' h2
        refine ⟨.model b :: P, ⟨h1, p1⟩, p2, p3, ?_⟩
        have : rcost cs (.model b :: P) = cs.model b + rcost cs P := by simp [rcost, Step.rcost]
        rw [this, p4]; simp [alignCost, moveCost]
    | some a =>
      cases y with
      | none =>
        obtain ⟨P, p1, p2, p3, p4⟩ := ih n hn hl' h
        refine ⟨.log a :: P, ⟨trivial, p1⟩, p2, ?_, ?_⟩
        · show [a] ++ cons P = _
          rw [p3]; rfl
        · have : rcost cs (.log a :: P) = cs.log a + rcost cs P := by simp [rcost, Step.rcost]
          rw [this, p4]; simp [alignCost, moveCost]
      | some b =>
        have hab : a = b := hm
        subst hab
        obtain ⟨h1, h2⟩ := split a h
        obtain ⟨P, p1, p2, p3, p4⟩ := ih (.act a) (fun h => by cases h) hl' h2
        refine ⟨.sync a :: P, ⟨h1, p1⟩, p2, ?_, ?_⟩
        · show [a] ++ cons P = _
          rw [p3]; rfl
        · have : rcost cs (.sync a :: P) = cs.sync a + rcost cs P := by simp [rcost, Step.rcost]
          rw [this, p4]; simp [alignCost, moveCost]

/-- the costs of the events that the graph does not have -/
def unk (G : Graph α) (cs : Costs α) (tr : List α) : Nat := (tr.map fun a => if G.inModel a then 0 else cs.log a).sum

theorem rcost_eq (G : Graph α) (cs : Costs α) (P : List (Step α)) : ∀ n, Ok G n P → rcost cs P = gcost G cs P + unk G cs (cons P) := by
  induction P with
  | nil => intro _ _; rfl
  | cons s P ih =>
    intro n h
    have := ih _ h.2
    have hcs : cons (s :: P) = cons [s] ++ cons P := cons_append [s] P
    have hu : unk G cs (cons (s :: P)) = unk G cs (cons [s]) + unk G cs (cons P) := by rw [hcs]; simp [unk]
    have hrc : rcost cs (s :: P) = s.rcost cs + rcost cs P := by simp [rcost]
    rw [hrc, gcost_cons, hu]
    have hs : s.rcost cs = s.gcost G cs + unk G cs (cons [s]) := by
      cases s with
      | sync a =>
        have hm := out_inModel G n a h.1
        have h0 : cons [Step.sync a] = [a] := rfl
        rw [h0]; simp [Step.rcost, Step.gcost, unk, hm]
      | model a => rfl
      | fin => rfl
      | log a =>
        have h0 : cons [Step.log a] = [a] := rfl
        rw [h0]
        by_cases hm : G.inModel a = true <;> simp [Step.rcost, Step.gcost, unk, ilog, hm]
    omega

theorem compat_uniform (G : Graph α) (k : Nat) : Compat G (Costs.uniform k) k := fun _ _ _ _ h => h

theorem compat_zero (G : Graph α) (cs : Costs α) : Compat G cs 0 := by
  intro P Q _ _ _
  have : ∀ P : List (Step α), gcost G (Costs.uniform 0) P = 0 := by
    intro P
    induction P with
    | nil => rfl
    | cons s P ih =>
      rw [gcost_cons, ih]
      cases s <;> simp [Step.gcost, Costs.uniform, ilog]
  rw [this]; omega

variable {pick : List (Entry α) → Option (Entry α × List (Entry α))} {G : Graph α} {fuel : Nat} {tr : List α}

/-- The search ends for every graph, trace and cost function. -/
theorem _root_.Verif.C52_terminates (hp : HeapOk pick) (G : Graph α) (cs : Costs α) (tr : List α) :
    ∃ N, ∀ fuel, N ≤ fuel → ∃ r, align pick G cs fuel tr = some r :=
  search_ends hp (compat_zero G cs) _ 1 _ _ _ _ (inv_start G cs tr 0) (Nat.le_refl _) (by simp)

/-- For all costs: the returned cost is the cost of an alignment of the trace with a trace of the graph. -/
theorem _root_.Verif.C52_sound (hp : HeapOk pick) (cs : Costs α) {e : Entry α} (h : align pick G cs fuel tr = some (some e)) :
    ∃ w mvs, G.Trace w ∧ IsAlignment tr w mvs ∧ alignCost cs mvs = e.cost := by
  obtain ⟨P, hP, hd, hc, _⟩ := (search_spec hp (compat_zero G cs) fuel _ _ _ _ _ (inv_start G cs tr 0) h).2 e rfl
  obtain ⟨h1, h2, h3⟩ := moves_align G cs P .start hP.facts.ok hd
  exact ⟨_, moves P, (lang_start G _).1 h1, hc ▸ h2, by rw [h3, Entry.cost, hP.facts.real]⟩

/-- For the default costs (and all costs that are 0 for synchronous moves and the same for all other moves) the returned cost is
the least cost of an alignment of the trace with any trace of the graph. -/
theorem _root_.Verif.C52_optimal (hp : HeapOk pick) (k : Nat) {e : Entry α} (h : align pick G (Costs.uniform k) fuel tr = some (some e)) :
    (∃ w mvs, G.Trace w ∧ IsAlignment tr w mvs ∧ alignCost (Costs.uniform k) mvs = e.cost) ∧
    ∀ w mvs, G.Trace w → IsAlignment tr w mvs → e.cost ≤ alignCost (Costs.uniform k) mvs := by
  refine ⟨C52_sound hp _ h, fun w mvs hw ⟨a1, a2, a3⟩ => ?_⟩
  obtain ⟨P, hP, hd, hc, hmin⟩ := (search_spec hp (compat_uniform G k) fuel _ _ _ _ _ (inv_start G _ tr k) h).2 e rfl
  obtain ⟨Q, q1, q2, q3, q4⟩ := align_moves G (Costs.uniform k) mvs .start (fun h => by cases h) a1 (by rw [a3]; exact (lang_start G w).2 hw)
  have hq := hmin Q q1 q2 (q3.trans a2)
  have e1 := rcost_eq G (Costs.uniform k) P _ hP.facts.ok
  have e2 := rcost_eq G (Costs.uniform k) Q _ q1
  rw [hc] at e1
  rw [q3, a2] at e2
  rw [Entry.cost, hP.facts.real, ← q4]
  omega

/-- an alignment with any sequence: first the trace, then the sequence -/
theorem trivial_align (tr w : List α) : IsAlignment tr w (tr.map (fun a => (some a, none)) ++ w.map (fun b => (none, some b))) := by
  refine ⟨?_, ?_, ?_⟩
  · intro m hm
    rcases List.mem_append.1 hm with hm | hm
    · obtain ⟨a, _, rfl⟩ := List.mem_map.1 hm; trivial
    · obtain ⟨a, _, rfl⟩ := List.mem_map.1 hm; trivial
  · simp [List.filterMap_append, List.filterMap_map, Function.comp_def]
  · simp [List.filterMap_append, List.filterMap_map, Function.comp_def]

/-- For all costs: the function returns nothing exactly if the graph has no trace (the disconnected graphs that the documentation
excludes). -/
theorem _root_.Verif.C52_none_iff (hp : HeapOk pick) (cs : Costs α) {r : Option (Entry α)} (h : align pick G cs fuel tr = some r) :
    r = none ↔ ¬ ∃ w, G.Trace w := by
  constructor
  · rintro hr ⟨w, hw⟩
    obtain ⟨a1, a2, a3⟩ := trivial_align tr w
    obtain ⟨Q, q1, q2, q3, _⟩ := align_moves G cs _ .start (fun h => by cases h) a1 (by rw [a3]; exact (lang_start G w).2 hw)
    exact (search_spec hp (compat_zero G cs) fuel _ _ _ _ _ (inv_start G cs tr 0) h).1 hr ⟨Q, q1, q2, q3.trans a2⟩
  · intro hn
    cases r with
    | none => rfl
    | some e =>
      obtain ⟨w, _, hw, _⟩ := C52_sound hp cs h
      exact absurd ⟨w, hw⟩ hn

theorem trace_ne {w : List α} (h : G.Trace w) : w ≠ [] := by
  intro h0; subst h0
  obtain ⟨a, _, ha⟩ := h.1
  cases ha

theorem cost_zero (k : Nat) (hk : 0 < k) (mvs : List (Option α × Option α)) (hl : ∀ m ∈ mvs, Legal m) (h : alignCost (Costs.uniform k) mvs = 0) :
    mvs.filterMap Prod.fst = mvs.filterMap Prod.snd := by
  induction mvs with
  | nil => rfl
  | cons m mvs ih =>
    have h2 : moveCost (Costs.uniform k) m = 0 ∧ alignCost (Costs.uniform k) mvs = 0 := by
      have : moveCost (Costs.uniform k) m + alignCost (Costs.uniform k) mvs = 0 := by simpa [alignCost] using h
      omega
    have ih' := ih (fun x hx => hl x (List.mem_cons_of_mem _ hx)) h2.2
    have hm := hl m (List.mem_cons_self ..)
    obtain ⟨x, y⟩ := m
    cases x <;> cases y
    · exact absurd hm id
    · have := h2.1; simp [moveCost, Costs.uniform] at this; omega
    · have := h2.1; simp [moveCost, Costs.uniform] at this; omega
    · have hab : _ = _ := hm
      simp [ih', hab]

theorem sync_cost (k : Nat) (tr : List α) : ∃ mvs, IsAlignment tr tr mvs ∧ alignCost (Costs.uniform k) mvs = 0 := by
  refine ⟨tr.map fun a => (some a, some a), ⟨?_, ?_, ?_⟩, ?_⟩
  · intro m hm
    obtain ⟨a, _, rfl⟩ := List.mem_map.1 hm; rfl
  · simp [List.filterMap_map, Function.comp_def]
  · simp [List.filterMap_map, Function.comp_def]
  · induction tr with
    | nil => rfl
    | cons a tr ih => simpa [alignCost, moveCost, Costs.uniform] using ih

/-- The cost is 0 exactly for the traces of the graph. -/
theorem _root_.Verif.C52_zero_iff (hp : HeapOk pick) (k : Nat) (hk : 0 < k) {e : Entry α}
    (h : align pick G (Costs.uniform k) fuel tr = some (some e)) : e.cost = 0 ↔ G.Trace tr := by
  obtain ⟨⟨w, mvs, hw, ha, hc⟩, hmin⟩ := C52_optimal hp k h
  constructor
  · intro h0
    have := cost_zero k hk mvs ha.1 (by omega)
    rw [ha.2.1, ha.2.2] at this
    rw [this]; exact hw
  · intro ht
    obtain ⟨m, hm, h0⟩ := sync_cost k tr
    have := hmin tr m ht hm
    omega

/-- The fitness of a trace (with the default costs, `fitness cs empty cost`) is well defined, is between 0 and 1, and is 1 exactly for the
traces of the graph. -/
theorem _root_.Verif.C52_fitness (hp : HeapOk pick) {e e0 : Entry α} {fuel0 : Nat}
    (h0 : align pick G (Costs.std : Costs α) fuel0 [] = some (some e0)) (h : align pick G (Costs.std : Costs α) fuel tr = some (some e)) :
    0 < e0.cost + (tr.map (Costs.std : Costs α).log).sum ∧
    0 ≤ fitness (Costs.std : Costs α) e0.cost e.cost tr ∧ fitness (Costs.std : Costs α) e0.cost e.cost tr ≤ 1 ∧
      (fitness (Costs.std : Costs α) e0.cost e.cost tr = 1 ↔ G.Trace tr) := by
  have hstd : (Costs.std : Costs α) = Costs.uniform W := rfl
  rw [hstd] at h h0 ⊢
  have hW : 0 < W := by decide
  have hpos : 0 < e0.cost := by
    refine Nat.pos_of_ne_zero fun hz => ?_
    exact trace_ne ((C52_zero_iff hp W hW h0).1 hz) rfl
  obtain ⟨⟨w0, m0, hw0, ha0, hc0⟩, _⟩ := C52_optimal hp W h0
  obtain ⟨_, hmin⟩ := C52_optimal hp W h
  have hle : e.cost ≤ e0.cost + (tr.map (Costs.uniform W : Costs α).log).sum := by
    refine Nat.le_trans (hmin w0 (tr.map (fun a => (some a, none)) ++ m0) hw0 ⟨?_, ?_, ?_⟩) ?_
    · intro m hm
      rcases List.mem_append.1 hm with hm | hm
      · obtain ⟨a, _, rfl⟩ := List.mem_map.1 hm; trivial
      · exact ha0.1 m hm
    · rw [List.filterMap_append, ha0.2.1]; simp [List.filterMap_map, Function.comp_def]
    · rw [List.filterMap_append, ha0.2.2]; simp [List.filterMap_map, Function.comp_def]
    · rw [← hc0]
      have h1 : alignCost (Costs.uniform W) (tr.map (fun a => ((some a, none) : Option α × Option α))) = (tr.map (Costs.uniform W : Costs α).log).sum := by
        rw [alignCost, List.map_map]; rfl
      have h2 : ∀ x y : List (Option α × Option α), alignCost (Costs.uniform W) (x ++ y) = alignCost (Costs.uniform W) x + alignCost (Costs.uniform W) y := by
        intro x y; simp [alignCost]
      rw [h2, h1]; omega
  have hb : 0 < e0.cost + (tr.map (Costs.uniform W : Costs α).log).sum := by omega
  have hbQ : (0 : Rat) < ((e0.cost + (tr.map (Costs.uniform W : Costs α).log).sum : Nat) : Rat) := by exact_mod_cast hb
  have hleQ : (e.cost : Rat) ≤ ((e0.cost + (tr.map (Costs.uniform W : Costs α).log).sum : Nat) : Rat) := by exact_mod_cast hle
  refine ⟨hb, ?_, ?_, ?_⟩
  · rw [fitness]
    have := (div_le_one hbQ).2 hleQ
    linarith
  · rw [fitness]
    have : (0 : Rat) ≤ (e.cost : Rat) / ((e0.cost + (tr.map (Costs.uniform W : Costs α).log).sum : Nat) : Rat) :=
      div_nonneg (by exact_mod_cast Nat.zero_le _) hbQ.le
    linarith
  · rw [← C52_zero_iff hp W hW h, fitness]
    constructor
    · intro hf
      have h1 : (e.cost : Rat) / ((e0.cost + (tr.map (Costs.uniform W : Costs α).log).sum : Nat) : Rat) = 0 := by linarith
      rcases div_eq_zero_iff.1 h1 with h2 | h2
      · exact_mod_cast h2
      · exact absurd h2 (ne_of_gt hbQ)
    · intro hf
      rw [hf]; simp

end Verif.DfgAlign
