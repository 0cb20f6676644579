import Verif.Powl.MinerTheorems

set_option linter.unusedSectionVars false

/-! C50: what a partial order cut of the POWL miner says about the log -/

namespace Verif

open Verif.PIM Verif.IM Dict Counter Dfg

variable {α : Type} [DecidableEq α]

/-- `a` occurs before `b` in some trace -/
def SomeBefore (log : List (List α)) (a b : α) : Prop := ∃ w ∈ log, [a, b].Sublist w

/-- specification of a partial order cut: two or more disjoint non-empty groups that cover the activities of the log, with an edge from a
group to another exactly if each activity of the former occurs before each of the latter and never after it; if there is no edge
between two groups, all their activities occur in both orders; a group without predecessor (successor) has a start (end) activity -/
structure OrderCut (log : List (List α)) (gs : List (List α)) (E : Nat → Nat → Bool) : Prop where
  two : 2 ≤ gs.length
  cover : ∀ a, (∃ w ∈ log, a ∈ w) ↔ ∃ g ∈ gs, a ∈ g
  disj : gs.Pairwise fun g h => ∀ a ∈ g, a ∉ h
  ne : ∀ g ∈ gs, g ≠ []
  ordered : ∀ (p q : Nat) (g h : List α), p ≠ q → gs[p]? = some g → gs[q]? = some h →
    (E p q = true ↔ ∀ a ∈ g, ∀ b ∈ h, SomeBefore log a b ∧ ¬ SomeBefore log b a)
  unordered : ∀ (p q : Nat) (g h : List α), p ≠ q → gs[p]? = some g → gs[q]? = some h → E p q = false → E q p = false →
    ∀ a ∈ g, ∀ b ∈ h, SomeBefore log a b ∧ SomeBefore log b a
  trans : ∀ p q r : Nat, p < gs.length → q < gs.length → r < gs.length → E p q = true → E q r = true → E p r = true
  first : ∀ (p : Nat) (g : List α), gs[p]? = some g → (∀ q, q < gs.length → q ≠ p → E q p = false) → ∃ a ∈ g, ∃ w ∈ log, w.head? = some a
  last : ∀ (p : Nat) (g : List α), gs[p]? = some g → (∀ q, q < gs.length → q ≠ p → E p q = false) → ∃ a ∈ g, ∃ w ∈ log, w.getLast? = some a

namespace PIM

theorem strict_trans {n : Nat} {E : BinRel.Edges} (h : BinRel.isStrictPartialOrder n E = true) :
    ∀ p q r : Nat, p < n → q < n → r < n → E p q = true → E q r = true → E p r = true := by
  intro p q r hp hq hr h1 h2
  exact (((C23_is_strict_partial_order n E).1 h).2 p q r ⟨hp, hq, h1⟩ ⟨hq, hr, h2⟩).2.2

theorem strict_irrefl {n : Nat} {E : BinRel.Edges} (h : BinRel.isStrictPartialOrder n E = true) : ∀ p, p < n → E p p = false := by
  intro p hp
  cases e : E p p with
  | false => rfl
  | true => exact absurd ⟨hp, hp, e⟩ (((C23_is_strict_partial_order n E).1 h).1 p)

theorem efg_some (L : UVCL α) (a b : α) : efg L a b = true ↔ SomeBefore (keys L) a b := efg_iff L a b

theorem efg_none (L : UVCL α) (a b : α) : efg L a b = false ↔ ¬ SomeBefore (keys L) a b := by
  rw [← efg_some]; simp

/-- the order of groups that `isValidOrder` accepts -/
theorem orderCut_of_valid {L : UVCL α} {gs : List (List α)} (hp : Partn (Occ L) gs) {E : BinRel.Edges}
    (hv : isValidOrder (efg L) gs E (keys (discoverUvcl L).starts) (keys (discoverUvcl L).ends) = true)
    (hE : ∀ (p q : Nat) (g h : List α), p ≠ q → gs[p]? = some g → gs[q]? = some h →
      (E p q = true ↔ ∀ a ∈ g, ∀ b ∈ h, efg L a b = true ∧ efg L b a = false)) : OrderCut (keys L) gs E := by
  obtain ⟨h2, hs⟩ := valid_two hv
  unfold isValidOrder at hv
  simp only [Bool.and_eq_true, List.all_eq_true, List.mem_range] at hv
  obtain ⟨⟨_, hpair⟩, hblock⟩ := hv
  have hlt : ∀ {p : Nat} {g : List α}, gs[p]? = some g → p < gs.length := fun h => (List.getElem?_eq_some_iff.1 h).1
  have key : ∀ (p q : Nat) (g h : List α), p < q → gs[p]? = some g → gs[q]? = some h → E p q = false → E q p = false →
      ∀ a ∈ g, ∀ b ∈ h, efg L a b = true ∧ efg L b a = true := by
    intro p q g h hpq hg hh e1 e2 a ha b hb
    have := hpair p (hlt hg) q (hlt hh)
    simp only [hpq, decide_true, Bool.not_true, Bool.false_or] at this
    unfold pairOk at this
    simp only [e1, e2, Bool.or_self, Bool.and_false, Bool.not_false, Bool.false_or, Bool.true_and, Bool.and_eq_true,
      getD_of_getElem? hg, getD_of_getElem? hh] at this
    unfold allEf at this
    simp only [List.all_eq_true] at this
    exact ⟨this.1 a ha b hb, this.2 b hb a ha⟩
  refine ⟨h2, fun a => hp.cover a, hp.disj, hp.ne, ?_, ?_, strict_trans hs, ?_, ?_⟩
  · intro p q g h hpq hg hh
    rw [hE p q g h hpq hg hh]
    simp only [efg_some, efg_none]
  · intro p q g h hpq hg hh e1 e2 a ha b hb
    simp only [← efg_some]
    rcases Nat.lt_or_gt_of_ne hpq with hl | hl
    · exact key p q g h hl hg hh e1 e2 a ha b hb
    · exact (key q p h g hl hh hg e2 e1 b hb a ha).symm
  · intro p g hg hq
    have := hblock p (hlt hg)
    unfold blockOk at this
    simp only [Bool.not_eq_true', Bool.or_eq_false_iff, Bool.and_eq_false_iff, Bool.not_eq_false', getD_of_getElem? hg] at this
    rcases this.1 with h | h
    · exfalso
      rw [List.all_eq_false] at h
      obtain ⟨q, hq1, hq2⟩ := h
      by_cases e : q = p
      · simp [e] at hq2
      · simp [hq q (List.mem_range.1 hq1) e] at hq2
    · rw [List.any_eq_true] at h
      obtain ⟨a, ha, h⟩ := h
      obtain ⟨v, hv⟩ := (start_iff L a).1 (by simpa using h)
      exact ⟨a, ha, _, hv, rfl⟩
  · intro p g hg hq
    have := hblock p (hlt hg)
    unfold blockOk at this
    simp only [Bool.not_eq_true', Bool.or_eq_false_iff, Bool.and_eq_false_iff, Bool.not_eq_false', getD_of_getElem? hg] at this
    rcases this.2 with h | h
    · exfalso
      rw [List.all_eq_false] at h
      obtain ⟨q, hq1, hq2⟩ := h
      by_cases e : q = p
      · simp [e] at hq2
      · simp [hq q (List.mem_range.1 hq1) e] at hq2
    · rw [List.any_eq_true] at h
      obtain ⟨a, ha, h⟩ := h
      obtain ⟨v, hv⟩ := (end_iff L a).1 (by simpa using h)
      exact ⟨a, ha, _, hv, by simp⟩

theorem maximal_orderCut {env : Env α} (henv : env.Lawful) {L : UVCL α} {r : List (List α) × BinRel.Edges}
    (h : holdsMaximal env L = some r) : OrderCut (keys L) r.1 r.2 := by
  unfold holdsMaximal at h
  simp only [] at h
  split at h
  case isFalse => cases h
  rename_i hv
  simp only [Option.some.injEq] at h
  subst h
  obtain ⟨c1, c2⟩ := clusters_spec (alphabetOf env L) (alphabetOf_nodup henv L) (initialOrder (efg L))
  have hp : Partn (Occ L) (clusters (alphabetOf env L) (initialOrder (efg L))) := c1.congr fun a => alphabetOf_mem henv L a
  refine orderCut_of_valid hp hv ?_
  intro p q g h hpq hg hh
  have hgm := List.mem_of_getElem? hg
  have hhm := List.mem_of_getElem? hh
  have hinit : ∀ a b, initialOrder (efg L) a b = true ↔ (efg L a b = true ∧ efg L b a = false) := by
    intro a b; unfold initialOrder; simp
  obtain ⟨x, hx⟩ : ∃ x, g.head? = some x := by
    cases g with
    | nil => exact absurd rfl (c1.ne _ hgm)
    | cons x _ => exact ⟨x, rfl⟩
  obtain ⟨y, hy⟩ : ∃ y, h.head? = some y := by
    cases h with
    | nil => exact absurd rfl (c1.ne _ hhm)
    | cons y _ => exact ⟨y, rfl⟩
  have hce : clusterEdge (clusters (alphabetOf env L) (initialOrder (efg L))) (initialOrder (efg L)) p q = initialOrder (efg L) x y := by
    unfold clusterEdge
    simp only [getD_of_getElem? hg, getD_of_getElem? hh, hx, hy]
  show clusterEdge _ _ p q = true ↔ _
  rw [hce]
  constructor
  · intro hE a ha b hb
    have sa := c2 _ hgm x hx a ha
    have sb := c2 _ hhm y hy b hb
    unfold samePos at sa sb
    rw [List.all_eq_true] at sa sb
    have ha' : a ∈ alphabetOf env L := (c1.cover a).2 ⟨_, hgm, ha⟩
    have hy' : y ∈ alphabetOf env L := (c1.cover y).2 ⟨_, hhm, List.mem_of_mem_head? hy⟩
    have e1 := sa y hy'
    have e2 := sb a ha'
    simp only [Bool.and_eq_true, beq_iff_eq] at e1 e2
    have : initialOrder (efg L) a b = true := by rw [e2.1, e1.2]; exact hE
    exact (hinit a b).1 this
  · intro hall
    exact (hinit x y).2 (hall x (List.mem_of_mem_head? hx) y (List.mem_of_mem_head? hy))

theorem brute_orderCut {env : Env α} (henv : env.Lawful) {L : UVCL α} {r : List (List α) × BinRel.Edges}
    (h : holdsBrute env L = some r) : OrderCut (keys L) r.1 r.2 := by
  unfold holdsBrute at h
  simp only [] at h
  rw [Option.map_eq_some_iff] at h
  obtain ⟨gs, hf, rfl⟩ := h
  have hv : isValidOrder _ _ _ _ _ = true := List.find?_some (p := fun gs => isValidOrder (efg L) gs (bruteEdge (efg L) gs) _ _) hf
  have c1 := partitions_spec _ (alphabetOf_nodup henv L) _ (Nat.le_refl _) gs (List.mem_of_find?_eq_some hf)
  have hp : Partn (Occ L) gs := c1.congr fun a => alphabetOf_mem henv L a
  refine orderCut_of_valid hp hv ?_
  have key : ∀ (i j : Nat) (g h : List α), gs[i]? = some g → gs[j]? = some h →
      ((allEf (efg L) (gs.getD i []) (gs.getD j []) && noneEf (efg L) (gs.getD j []) (gs.getD i [])) = true ↔
        ∀ a ∈ g, ∀ b ∈ h, efg L a b = true ∧ efg L b a = false) := by
    intro i j g h hg hh
    simp only [allEf, noneEf, getD_of_getElem? hg, getD_of_getElem? hh, Bool.and_eq_true, List.all_eq_true, Bool.not_eq_true']
    exact ⟨fun k a ha b hb => ⟨k.1 a ha b hb, k.2 b hb a ha⟩, fun k => ⟨fun a ha b hb => (k a ha b hb).1, fun b hb a ha => (k a ha b hb).2⟩⟩
  intro p q g h hpq hg hh
  show bruteEdge (efg L) gs p q = true ↔ _
  unfold bruteEdge
  simp only []
  rcases Nat.lt_or_gt_of_ne hpq with hl | hl
  · rw [if_pos hl]; exact key p q g h hg hh
  · rw [if_neg (by omega), if_pos hl]
    rw [Bool.and_eq_true, key p q g h hg hh]
    constructor
    · exact fun k => k.2
    · intro k
      refine ⟨?_, k⟩
      rw [Bool.not_eq_true', ← Bool.not_eq_true]
      rw [key q p h g hh hg]
      intro k'
      have hg0 := c1.ne _ (List.mem_of_getElem? hg)
      have hh0 := c1.ne _ (List.mem_of_getElem? hh)
      obtain ⟨a, ha⟩ := List.exists_mem_of_ne_nil _ hg0
      obtain ⟨b, hb⟩ := List.exists_mem_of_ne_nil _ hh0
      have := (k a ha b hb).2
      rw [(k' b hb a ha).1] at this
      cases this

/-- the partial order of the POWL node has the edges of the cut -/
theorem copyOrder_eq {log : List (List α)} {gs : List (List α)} {E : BinRel.Edges} (h : OrderCut log gs E) :
    ∀ p q : Nat, p < gs.length → q < gs.length → p ≠ q → copyOrder E p q = E p q := by
  intro p q hp hq hpq
  unfold copyOrder
  rcases Nat.lt_or_gt_of_ne hpq with hl | hl
  · rw [if_pos hl]
  · rw [if_neg (by omega), if_pos hl]
    cases e1 : E p q with
    | false => simp
    | true =>
      cases e2 : E q p with
      | false => rfl
      | true =>
        exfalso
        have a1 := (h.ordered p q _ _ hpq (List.getElem?_eq_getElem hp) (List.getElem?_eq_getElem hq)).1 e1
        have a2 := (h.ordered q p _ _ (Ne.symm hpq) (List.getElem?_eq_getElem hq) (List.getElem?_eq_getElem hp)).1 e2
        obtain ⟨a, ha⟩ := List.exists_mem_of_ne_nil _ (h.ne _ (List.getElem_mem hp))
        obtain ⟨b, hb⟩ := List.exists_mem_of_ne_nil _ (h.ne _ (List.getElem_mem hq))
        exact (a1 a ha b hb).2 (a2 b hb a ha).1

theorem _root_.Verif.OrderCut.copy {log : List (List α)} {gs : List (List α)} {E : BinRel.Edges} (h : OrderCut log gs E)
    (hE : ∀ p, p < gs.length → E p p = false) : OrderCut log gs (copyOrder E) := by
  have hlt : ∀ {p : Nat} {g : List α}, gs[p]? = some g → p < gs.length := fun h => (List.getElem?_eq_some_iff.1 h).1
  have hF := copyOrder_eq h
  refine ⟨h.two, h.cover, h.disj, h.ne, ?_, ?_, ?_, ?_, ?_⟩
  · intro p q g h' hpq hg hh
    rw [hF p q (hlt hg) (hlt hh) hpq]; exact h.ordered p q g h' hpq hg hh
  · intro p q g h' hpq hg hh
    rw [hF p q (hlt hg) (hlt hh) hpq, hF q p (hlt hh) (hlt hg) (Ne.symm hpq)]; exact h.unordered p q g h' hpq hg hh
  · intro p q r hp hq hr
    have e : ∀ i j, i < gs.length → j < gs.length → copyOrder E i j = E i j := by
      intro i j hi hj
      by_cases e : i = j
      · rw [e, hE j hj]; simp [copyOrder]
      · exact hF i j hi hj e
    rw [e p q hp hq, e q r hq hr, e p r hp hr]
    exact h.trans p q r hp hq hr
  · intro p g hg hq
    exact h.first p g hg fun q h1 h2 => by rw [← hF q p h1 (hlt hg) h2]; exact hq q h1 h2
  · intro p g hg hq
    exact h.last p g hg fun q h1 h2 => by rw [← hF p q (hlt hg) h1 (Ne.symm h2)]; exact hq q h1 h2

theorem maximal_strict {env : Env α} {L : UVCL α} {r : List (List α) × BinRel.Edges}
    (h : holdsMaximal env L = some r) : BinRel.isStrictPartialOrder r.1.length r.2 = true := by
  unfold holdsMaximal at h
  simp only [] at h
  split at h
  case isFalse => cases h
  rename_i hv
  simp only [Option.some.injEq] at h
  subst h
  exact (valid_two hv).2

theorem brute_strict {env : Env α} {L : UVCL α} {r : List (List α) × BinRel.Edges}
    (h : holdsBrute env L = some r) : BinRel.isStrictPartialOrder r.1.length r.2 = true := by
  unfold holdsBrute at h
  simp only [] at h
  rw [Option.map_eq_some_iff] at h
  obtain ⟨gs, hf, rfl⟩ := h
  exact (valid_two (show isValidOrder _ _ _ _ _ = true from List.find?_some (p := fun gs => isValidOrder (efg L) gs (bruteEdge (efg L) gs) _ _) hf)).2

end PIM

/-- C50: a partial order cut, in the variants MAXIMAL and BRUTE_FORCE, splits the activities of the (sub)log into groups, and the order
between the groups says exactly what the traces show (`OrderCut`); the sublogs contain the projections of the traces. -/
theorem C50_order_cut (v : Variant) {env : Env α} (henv : env.Lawful) (L : UVCL α) (st : PStep α) (h : poCut v env L = some st) :
    ∃ gs E logs, st = .po E logs ∧ OrderCut (keys L) gs E ∧ logs.length = gs.length ∧
      ∀ (i : Nat) (l : UVCL α) (g : List α), logs[i]? = some l → gs[i]? = some g →
        ∀ w, w ∈ keys l ↔ ∃ t ∈ keys L, w = t.filter fun x => decide (x ∈ g) := by
  unfold poCut at h
  split at h
  · cases h
  · rw [Option.map_eq_some_iff] at h
    obtain ⟨r, hr, rfl⟩ := h
    exact ⟨r.1, _, _, rfl, (maximal_orderCut henv hr).copy (strict_irrefl (maximal_strict hr)), by simp [projectGroups],
      fun i l g hl hg => (projectGroups_keys i l g hl hg).2⟩
  · rw [Option.map_eq_some_iff] at h
    obtain ⟨r, hr, rfl⟩ := h
    exact ⟨r.1, _, _, rfl, (brute_orderCut henv hr).copy (strict_irrefl (brute_strict hr)), by simp [projectPar],
      fun i l g hl hg => (projectPar_keys i l g hl hg).2⟩

namespace PIM

theorem mapAll_get {β γ : Type} (f : β → Option γ) (l : List β) (rs : List γ) (h : mapAll f l = some rs) :
    rs.length = l.length ∧ ∀ (i : Nat) (b : β) (r : γ), l[i]? = some b → rs[i]? = some r → f b = some r := by
  induction l generalizing rs with
  | nil => simp [mapAll] at h; subst h; simp
  | cons b l ih =>
    simp only [mapAll] at h
    cases hb : f b with
    | none => simp [hb] at h
    | some c =>
      cases hl : mapAll f l with
      | none => simp [hb, hl] at h
      | some cs =>
        simp [hb, hl] at h
        subst h
        obtain ⟨h1, h2⟩ := ih cs hl
        refine ⟨by simp [h1], ?_⟩
        intro i b' r hb' hr
        cases i with
        | zero => simp at hb' hr; subst hb' hr; exact hb
        | succ i => exact h2 i b' r (by simpa using hb') (by simpa using hr)

theorem recurseP_compose {f : UVCL α → Option (Option (Powl α))} {st : PStep α} (hs : Shape st) {t : Powl α}
    (h : recurseP f st = some (some t)) :
    ∃ ts : List (Powl α), ts.length = st.logs.length ∧
      (∀ (i : Nat) (l : UVCL α) (c : Powl α), st.logs[i]? = some l → ts[i]? = some c → f l = some (some c)) ∧
      ∀ w, t.lang w ↔ pLang st (ts.map Powl.lang) w := by
  have hst : st ≠ .error := by rintro rfl; exact hs
  have he : (mapAll f st.logs).map (fun cs => (allSome cs).bind st.make) = some (some t) := by
    cases st with
    | error => exact absurd rfl hst
    | _ => exact h
  rw [Option.map_eq_some_iff] at he
  obtain ⟨rs, h1, h2⟩ := he
  rw [Option.bind_eq_some_iff] at h2
  obtain ⟨ts, h3, h4⟩ := h2
  have hrs := allSome_some rs ts h3
  obtain ⟨g1, g2⟩ := mapAll_get f st.logs rs h1
  have hlen : ts.length = st.logs.length := by rw [← g1, hrs, List.length_map]
  refine ⟨ts, hlen, ?_, ?_⟩
  · intro i l c hl hc
    exact g2 i l (some c) hl (by rw [hrs, List.getElem?_map, hc]; rfl)
  · intro w
    cases st with
    | error => exact absurd rfl hst
    | xor logs =>
      simp only [PStep.make] at h4
      split at h4
      · cases h4
      · cases h4
        simp [pLang, Powl.lang, Powl.langs_eq_map]
    | loop b r =>
      replace hlen : ts.length = 2 := hlen
      match ts, hlen with
      | [x, y], _ =>
        cases h4
        simp [pLang, Powl.lang, PT.opLang]
    | po E logs =>
      obtain ⟨_, k2⟩ : logs ≠ [] ∧ BinRel.isStrictPartialOrder logs.length E = true := hs
      replace hlen : ts.length = logs.length := hlen
      rw [← hlen] at k2
      cases h4
      have e : Powl.Before ts.length (copyOrder E) = Powl.Before ts.length E := by
        funext i j
        rw [Powl.before_of_strict (strict_copy k2), Powl.before_of_strict k2]
        exact propext (rel_copy k2 i j)
      simp only [pLang, Powl.lang, Powl.langs_eq_map, List.length_map, e]

end PIM

/-- C50: the model of a log without the empty trace that is no base case is made of the models of the sublogs: its traces are the traces
of the choice / the loop / the partial order found for the log, over the models of the sublogs. -/
theorem C50_compose (v : Variant) {env : Env α} (henv : env.Lawful) (L : UVCL α) (hn : (keys L).Nodup) (hsz : (sizeA L : Int) ≤ maxsize)
    (hne : [] ∉ keys L) (hb : keys L ≠ [] ∧ ∀ a, keys L ≠ [[a]]) (n : Nat) (t : Powl α) (h : pim v env (n + 1) L = some (some t)) :
    ∃ ts : List (Powl α), ts.length = (cutOrFallP v env L).logs.length ∧
      (∀ (i : Nat) (l : UVCL α) (c : Powl α), (cutOrFallP v env L).logs[i]? = some l → ts[i]? = some c → pim v env n l = some (some c)) ∧
      ∀ w, t.lang w ↔
        match cutOrFallP v env L with
        | .xor _ => Lang.xorL (ts.map Powl.lang) w
        | .loop _ _ => PT.opLang .loop (ts.map Powl.lang) w
        | .po E _ => Lang.poL (Powl.Before ts.length E) (ts.map Powl.lang) w
        | .error => False := by
  have hbP : baseP L = none := by
    unfold baseP
    split
    · rename_i hk; exact absurd hk hb.1
    · rename_i a hk; exact absurd hk (hb.2 a)
    · rfl
  have hE : emptyP L = none := by unfold emptyP; rw [if_neg hne]
  have hbC : baseCase L = none := by
    unfold baseCase
    split
    all_goals first | rfl | skip
    all_goals simp_all
  simp only [pim, hE, hbP] at h
  rcases cutOrFallP_spec (v := v) henv hn hsz hne hbC with ⟨hok, _⟩ | ⟨he, _⟩
  · obtain ⟨ts, h1, h2, h3⟩ := recurseP_compose hok.shape h
    refine ⟨ts, h1, h2, fun w => ?_⟩
    rw [h3]
    cases cutOrFallP v env L <;> simp [pLang]
  · rw [he] at h; simp [recurseP] at h

/-- both variants cut `orderLog` -/
example : ∀ v, v ≠ .tree → (poCut v exampleEnv (ofList orderLog)).isSome = true := by
  intro v hv
  cases v with
  | tree => exact absurd rfl hv
  | maximal => decide
  | brute => decide

end Verif
