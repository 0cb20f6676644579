import Verif.DfgAlign.Main
/-
C52: the moves that the code returns, and where they are not an alignment.
-/
set_option linter.unusedSectionVars false
namespace Verif.DfgAlign
variable {α : Type} [DecidableEq α]

/-- the moves of a list of states, last state first -/
def framesMoves (tr : List α) (l : List (Frame α)) : List (Option α × Option (Node α)) :=
  (l.filterMap fun s => if 1 ≤ s.pos then some (if s.mm then none else tr[s.pos - 1]?, if s.lm then none else some s.node) else none).reverse

/-- a move as the code writes it -/
def lift (m : Option α × Option α) : Option α × Option (Node α) := (m.1, m.2.map .act)

theorem path_moves {G : Graph α} {cs : Costs α} {tr : List α} {e : Entry α} {P : List (Step α)} (h : Path G cs tr e P)
    (hf : ∀ s ∈ e.cur :: e.prev, s.node ≠ .fin) :
    ∃ (pre : List α) (A : List (Option α × Option α)), moves P = pre.map (fun b => (none, some b)) ++ A ∧
      framesMoves tr (e.cur :: e.prev) = A.map lift ∧ (e.cur.pos = 0 → A = []) := by
  induction h with
  | nil => exact ⟨[], [], rfl, by simp [framesMoves, startEntry], fun _ => rfl⟩
  | snoc e P s v hp ha ih =>
    obtain ⟨pre, A, h1, h2, h3⟩ := ih fun s hs => hf s (List.mem_cons_of_mem _ hs)
    have F := hp.facts
    have hmv : moves (P ++ [s]) = moves P ++ moves [s] := List.filterMap_append
    have hfr : ∀ c : Frame α, framesMoves tr (c :: e.cur :: e.prev) = framesMoves tr (e.cur :: e.prev) ++ framesMoves tr [c] := by
      intro c
      simp only [framesMoves]
      rw [← List.reverse_append, ← List.filterMap_append]
      rfl
    have hfr' : framesMoves tr ((ext G cs v e s).cur :: (ext G cs v e s).prev) =
        framesMoves tr (e.cur :: e.prev) ++ framesMoves tr [(ext G cs v e s).cur] := hfr _
    cases s with
    | sync a =>
      refine ⟨pre, A ++ [(some a, some a)], by rw [hmv, h1]; simp [moves, Step.move], ?_, fun h => ?_⟩
      · rw [hfr', h2, List.map_append]
        have hpos : (ext G cs v e (.sync a)).cur.pos = (cons P).length + 1 := by rw [← F.pos]; rfl
        congr 1
        simp only [framesMoves, List.filterMap_cons, hpos]
        have := ha.1
        simp [ext, Step.isLog, Step.isModel, Step.next, lift, this]
      · have : e.cur.pos + 1 = 0 := h
        omega
    | log a =>
      refine ⟨pre, A ++ [(some a, none)], by rw [hmv, h1]; simp [moves, Step.move], ?_, fun h => ?_⟩
      · rw [hfr', h2, List.map_append]
        have hpos : (ext G cs v e (.log a)).cur.pos = (cons P).length + 1 := by rw [← F.pos]; rfl
        congr 1
        simp only [framesMoves, List.filterMap_cons, hpos]
        have := ha.1
        simp [ext, Step.isLog, Step.isModel, Step.next, lift, this]
      · have : e.cur.pos + 1 = 0 := h
        omega
    | fin => exact absurd rfl (hf _ (List.mem_cons_self ..))
    | model b =>
      have hpos : (ext G cs v e (.model b)).cur.pos = e.cur.pos := rfl
      by_cases h0 : e.cur.pos = 0
      · have hA := h3 h0
        subst hA
        refine ⟨pre ++ [b], [], by rw [hmv, h1]; simp [moves, Step.move], ?_, fun _ => rfl⟩
        rw [hfr', h2]
        simp [framesMoves, hpos, h0]
      · refine ⟨pre, A ++ [(none, some b)], by rw [hmv, h1]; simp [moves, Step.move], ?_, fun h => absurd h h0⟩
        rw [hfr', h2, List.map_append]
        congr 1
        have h1 : 1 ≤ e.cur.pos := by omega
        simp only [framesMoves, List.filterMap_cons, hpos, h1]
        simp [ext, Step.isLog, Step.isModel, Step.next, lift]

variable {pick : List (Entry α) → Option (Entry α × List (Entry α))} {G : Graph α} {fuel : Nat} {tr : List α}

/-- For all costs: if the search did not go to the end node before the end of the trace, the returned moves are an alignment with a
trace of the graph without the model moves before its first event. -/
theorem _root_.Verif.C52_moves_partial (hp : HeapOk pick) (cs : Costs α) {e : Entry α}
    (h : align pick G cs fuel tr = some (some e)) (hf : ∀ s ∈ e.prev, s.node ≠ .fin) :
    ∃ (pre : List α) (A : List (Option α × Option α)) (w : List α), e.moves tr = A.map lift ∧ G.Trace w ∧
      IsAlignment tr w (pre.map (fun b => (none, some b)) ++ A) ∧
      alignCost cs (pre.map (fun b => (none, some b)) ++ A) = e.cost := by
  obtain ⟨P, hP, hd, hc, _⟩ := (search_spec hp (compat_zero G cs) fuel _ _ _ _ _ (inv_start G cs tr 0) h).2 e rfl
  obtain ⟨a1, a2, a3⟩ := moves_align G cs P .start hP.facts.ok hd
  have hreal := hP.facts.real
  cases hP with
  | nil => cases hd
  | snoc e P s v hp ha =>
    have hnode : s.next e.cur.node = .fin := by rw [hp.facts.node]; rw [dest_append] at hd; exact hd
    have hs : s = .fin := by
      cases s with
      | fin => rfl
      | sync a => cases hnode
      | model a => cases hnode
      | log a => exact absurd hnode (hf e.cur (List.mem_cons_self ..))
    subst hs
    obtain ⟨pre, A, h1, h2, _⟩ := path_moves hp hf
    have hmv : moves (P ++ [.fin]) = pre.map (fun b => (none, some b)) ++ A := by
      rw [← h1]
      show moves (P ++ [.fin]) = moves P
      simp [moves, Step.move]
    refine ⟨pre, A, _, h2, (lang_start G _).1 a1, ?_, ?_⟩
    · rw [hmv, hc] at a2
      rw [hmv]; exact a2
    · rw [← hmv, a3, ← hreal]; rfl

theorem pickLex_ok : HeapOk (pickLex (α := α)) := by
  have key : ∀ l : List (Entry α), l ≠ [] → ∃ e rest, pickLex l = some (e, rest) ∧ l.Perm (e :: rest) ∧ ∀ x ∈ l, e.cur.g ≤ x.cur.g := by
    intro l
    induction l with
    | nil => intro h; exact absurd rfl h
    | cons x l ih =>
      intro _
      by_cases hl : l = []
      · subst hl
        exact ⟨x, [], rfl, .refl _, fun y hy => by rw [List.mem_singleton] at hy; rw [hy]⟩
      · obtain ⟨e, rest, h1, h2, h3⟩ := ih hl
        by_cases hb : before x e = true
        · refine ⟨x, l, by simp only [pickLex, h1, hb, if_true], .refl _, fun y hy => ?_⟩
          have hxe : x.cur.g ≤ e.cur.g := by
            simp [before] at hb; omega
          rcases List.mem_cons.1 hy with rfl | hy
          · exact Nat.le_refl _
          · exact Nat.le_trans hxe (h3 y hy)
        · refine ⟨e, x :: rest, by simp [pickLex, h1, hb], ((h2.cons x).trans (.swap e x rest)), fun y hy => ?_⟩
          have hxe : e.cur.g ≤ x.cur.g := by
            simp [before] at hb; omega
          rcases List.mem_cons.1 hy with rfl | hy
          · exact hxe
          · exact h3 y hy
  exact ⟨rfl, key⟩

/-- what one would expect of the returned moves -/
def MovesRight (G : Graph α) (tr : List α) (e : Entry α) : Prop :=
  ∃ w A, G.Trace w ∧ IsAlignment tr w A ∧ e.moves tr = A.map lift

/-- The returned moves need not be an alignment: the model moves before the first event are missing. Trace ⟨b⟩ and the graph with the
only trace ⟨a, b⟩: the result is `[(b, b)]`. -/
theorem _root_.Verif.C52_moves_refuted : ∃ (e : Entry Nat), align pickLex ⟨[(0, 1)], [0], [1]⟩ Costs.std 10 [1] = some (some e) ∧
    e.moves [1] = [(some 1, some (.act 1))] ∧ ¬ MovesRight ⟨[(0, 1)], [0], [1]⟩ [1] e := by
  have h : ∃ e : Entry Nat, align pickLex ⟨[(0, 1)], [0], [1]⟩ Costs.std 10 [1] = some (some e) ∧ e.moves [1] = [(some 1, some (.act 1))] := by
    refine ⟨_, rfl, ?_⟩
    decide
  obtain ⟨e, h1, h2⟩ := h
  refine ⟨e, h1, h2, ?_⟩
  rintro ⟨w, A, hw, ha, hm⟩
  rw [h2] at hm
  match A, hm with
  | [], hm => simp at hm
  | _ :: _ :: _, hm => simp at hm
  | [m], hm =>
    simp [lift] at hm
    have hw' : w = [1] := by
      rw [← ha.2.2]
      obtain ⟨m1, m2⟩ := m
      obtain ⟨_, h4⟩ := hm
      simp at h4
      simp [h4]
    subst hw'
    obtain ⟨a, ha, hh⟩ := hw.1
    simp at ha hh
    omega

/-- The returned moves need not be an alignment: they can contain the end node, in place of the last event. Trace ⟨a, x⟩ and the
graph with the traces ⟨a⟩ and ⟨x, a⟩: the result is `[(a, a), (a, end node)]`. -/
theorem _root_.Verif.C52_end_moves_refuted : ∃ (e : Entry Nat), align pickLex ⟨[(1, 0)], [1, 0], [0]⟩ Costs.std 20 [0, 1] = some (some e) ∧
    e.moves [0, 1] = [(some 0, some (.act 0)), (some 0, some .fin)] ∧ ¬ MovesRight ⟨[(1, 0)], [1, 0], [0]⟩ [0, 1] e := by
  have h : ∃ e : Entry Nat, align pickLex ⟨[(1, 0)], [1, 0], [0]⟩ Costs.std 20 [0, 1] = some (some e) ∧
      e.moves [0, 1] = [(some 0, some (.act 0)), (some 0, some .fin)] := by
    refine ⟨_, rfl, ?_⟩
    decide
  obtain ⟨e, h1, h2⟩ := h
  refine ⟨e, h1, h2, ?_⟩
  rintro ⟨w, A, _, _, hm⟩
  rw [h2] at hm
  match A, hm with
  | [], hm => simp at hm
  | [_], hm => simp at hm
  | _ :: _ :: _ :: _, hm => simp at hm
  | [m, m'], hm =>
    simp [lift] at hm

/-- With other costs the returned cost need not be the least one: trace ⟨b, a, a⟩, the only trace of the graph is ⟨a, b⟩, model moves cost
3, log moves 2 (of a) and 3 (of b). The result is 8, an alignment with cost 7 exists. -/
theorem _root_.Verif.C52_custom_costs_refuted :
    let G : Graph Nat := ⟨[(0, 1)], [0], [1]⟩
    let cs : Costs Nat := ⟨fun _ => 0, fun _ => 3, fun a => if a = 0 then 2 else 3⟩
    (∃ e, align pickLex G cs 40 [1, 0, 0] = some (some e) ∧ e.cost = 8) ∧
      ∃ w mvs, G.Trace w ∧ IsAlignment [1, 0, 0] w mvs ∧ alignCost cs mvs = 7 := by
  refine ⟨⟨_, rfl, by decide⟩, [0, 1], [(none, some 0), (some 1, some 1), (some 0, none), (some 0, none)], ?_, ?_, by decide⟩
  · refine ⟨⟨0, by simp, rfl⟩, ⟨1, by simp, rfl⟩, fun i a b ha hb => ?_⟩
    match i with
    | 0 => simp at ha hb; simp [← ha, ← hb]
    | 1 => simp at hb
    | n + 2 => simp at ha
  · refine ⟨?_, rfl, rfl⟩
    intro m hm
    simp at hm
    rcases hm with rfl | rfl | rfl <;> simp [Legal]

/-- an example: one model move, one log move -/
example : ∃ e : Entry Nat, align pickLex ⟨[(0, 1), (1, 2), (2, 1)], [0], [2]⟩ Costs.std 100 [0, 2, 5] = some (some e) ∧ e.cost = 20000 :=
  ⟨_, rfl, by decide⟩
example : ∃ e : Entry Nat, align pickLex ⟨[(0, 1), (1, 2), (2, 1)], [0], [2]⟩ Costs.std 100 [0, 1, 2, 1, 2] = some (some e) ∧ e.cost = 0 :=
  ⟨_, rfl, by decide⟩
example : align pickLex (⟨[(0, 1)], [0], [2]⟩ : Graph Nat) Costs.std 100 [0, 1] = some none := by decide

end Verif.DfgAlign
