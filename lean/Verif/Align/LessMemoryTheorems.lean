import Verif.Align.LessMemoryProofs
/-
Property theorems C33: the memory-efficient search (dijkstra_less_memory.py) returns alignments, and finds one whenever the
net has a complete run; the returned alignment is not always optimal.
-/
namespace Verif
open Dict Align
namespace LM
variable {T A : Type}

/-- `t` can fire in the encoded marking `m` -/
def En (net : Net Nat T) (m : List Nat) (t : T) : Prop := t ∈ net.transitions ∧ ∀ p, arcWeight (net.inArcs t) p ≤ tok m p

variable [DecidableEq A]

/-- states that the search can create -/
inductive Valid (cfg : Cfg T A) (im : List Nat) : S T → Prop
  | root : Valid cfg im (.root im)
  | sync {u : S T} {len cnt : Nat} {t : T} (hu : Valid cfg im u) (he : En cfg.net.toNet u.m t) (hs : isSync cfg u t = true) :
      Valid cfg im (.node (u.cost + cfg.syncCost) (u.pos + 1) 0 len cnt u (next cfg.net.toNet u.m t) (some t))
  | model {u : S T} {len cnt : Nat} {t : T} (hu : Valid cfg im u) (he : En cfg.net.toNet u.m t) :
      Valid cfg im (.node (u.cost + cfg.modelCost t) u.pos 2 len cnt u (next cfg.net.toNet u.m t) (some t))
  | log {u : S T} {len cnt : Nat} (hu : Valid cfg im u) (hp : u.pos < cfg.tr.length) :
      Valid cfg im (.node (u.cost + cfg.traceCost u.pos) (u.pos + 1) 1 len cnt u u.m none)

theorem isSync_iff (cfg : Cfg T A) (u : S T) (t : T) :
    isSync cfg u t = true ↔ ∃ a, cfg.tr[u.pos]? = some a ∧ cfg.net.label t = some a := by
  unfold isSync
  cases h : cfg.tr[u.pos]? <;> simp

/-- cost function of the moves reported by the search -/
def moveCost (cfg : Cfg T A) : Move Nat T → Int := productCost cfg.traceCost cfg.modelCost fun _ _ => cfg.syncCost

omit [DecidableEq A] in
theorem run_snoc [DecidableEq T] (net : Net Nat T) (h : Plain net) (f : Nat → Int) (ts : List T) (m : List Nat) (t : T)
    (hr : CRun net f ts (tok m)) (he : En net m t) : CRun net f (ts ++ [t]) (tok (next net m t)) := by
  rw [crun_snoc]
  exact ⟨_, hr, he.1, he.2, funext fun p => next_tok net h t he.1 m he.2 p⟩

theorem Valid.spec [DecidableEq T] {cfg : Cfg T A} {im : List Nat} (hpl : Plain cfg.net.toNet) (him : im.Pairwise (· ≤ ·)) {x : S T}
    (h : Valid cfg im x) :
    x.m.Pairwise (· ≤ ·) ∧ x.pos ≤ cfg.tr.length ∧ x.alignment.filterMap Move.fst? = List.range x.pos ∧
    CRun cfg.net.toNet (tok im) (x.alignment.filterMap Move.snd?) (tok x.m) ∧
    x.cost = (x.alignment.map (moveCost cfg)).sum ∧
    ∀ i t, Move.sync i t ∈ x.alignment → ∃ a, cfg.tr[i]? = some a ∧ cfg.net.label t = some a := by
  induction h with
  | root => exact ⟨him, by simp [S.pos], by simp [S.alignment, S.pos], by simp [S.alignment, CRun, S.m], by simp [S.alignment, S.cost],
      by simp [S.alignment]⟩
  | @sync u len cnt t hu he hs ih =>
    obtain ⟨i1, i2, i3, i4, i5, i6⟩ := ih
    obtain ⟨a, ha, hl⟩ := (isSync_iff cfg u t).1 hs
    have hlt : u.pos < cfg.tr.length := (List.getElem?_eq_some_iff.1 ha).1
    refine ⟨next_sorted _ _ _, hlt, ?_, ?_, ?_, ?_⟩
    · simp [S.alignment, S.pos, i3, Move.fst?, List.range_succ]
    · simp only [S.alignment, List.filterMap_append, S.m]
      exact run_snoc _ hpl _ _ _ t i4 he
    · show u.cost + cfg.syncCost = _
      rw [i5]; simp [S.alignment, moveCost, productCost, List.sum_append]
    · intro i t' hm
      simp only [S.alignment, List.mem_append, List.mem_singleton, Move.sync.injEq] at hm
      rcases hm with hm | ⟨rfl, rfl⟩
      · exact i6 i t' hm
      · exact ⟨a, by simpa using ha, hl⟩
  | @model u len cnt t hu he ih =>
    obtain ⟨i1, i2, i3, i4, i5, i6⟩ := ih
    refine ⟨next_sorted _ _ _, i2, ?_, ?_, ?_, ?_⟩
    · simp [S.alignment, S.pos, i3, Move.fst?]
    · simp only [S.alignment, List.filterMap_append, S.m]
      exact run_snoc _ hpl _ _ _ t i4 he
    · show u.cost + cfg.modelCost t = _
      rw [i5]; simp [S.alignment, moveCost, productCost, List.sum_append]
    · intro i t' hm
      simp only [S.alignment, List.mem_append, List.mem_singleton] at hm
      rcases hm with hm | hm
      · exact i6 i t' hm
      · cases hm
  | @log u len cnt hu hp ih =>
    obtain ⟨i1, i2, i3, i4, i5, i6⟩ := ih
    refine ⟨i1, hp, ?_, ?_, ?_, ?_⟩
    · simp [S.alignment, S.pos, i3, Move.fst?, List.range_succ]
    · simp only [S.alignment, List.filterMap_append]
      rw [show [Move.left (u.pos + 1 - 1)].filterMap (Move.snd? (T2 := T)) = [] from rfl, List.append_nil]
      exact i4
    · show u.cost + cfg.traceCost u.pos = _
      rw [i5]; simp [S.alignment, moveCost, productCost, List.sum_append]
    · intro i t' hm
      simp only [S.alignment, List.mem_append, List.mem_singleton] at hm
      rcases hm with hm | hm
      · exact i6 i t' hm
      · cases hm

/-! ### Coverage -/

/-- the pair `(m, pos)` has been visited, or will be, at this or a later position of the trace -/
def Cov (openSet : List (S T)) (closed : Dict (List Nat) Nat) (m : List Nat) (pos : Nat) : Prop :=
  checkClosed closed m pos = true ∨ ∃ y ∈ openSet, y.m = m ∧ pos ≤ y.pos

/-- where a state reached by a move on model comes from -/
def Anc (cfg : Cfg T A) (V : List (S T)) : S T → Prop
  | .root _ => True
  | .node _ pos ty _ _ p m _ => ty = 2 → p ∈ V ∧ p.pos = pos ∧ ∃ t, En cfg.net.toNet p.m t ∧ m = next cfg.net.toNet p.m t

/-- the invariant of the main loop; `V` are the states visited so far -/
structure Inv (cfg : Cfg T A) (im fm : List Nat) (V openSet : List (S T)) (closed : Dict (List Nat) Nat) : Prop where
  valid : ∀ x ∈ openSet, Valid cfg im x
  validV : ∀ x ∈ V, Valid cfg im x
  closedV : ∀ m p, get? closed m = some p → ∃ v ∈ V, v.m = m ∧ v.pos = p
  succ : ∀ v ∈ V, ∀ t, En cfg.net.toNet v.m t → Cov openSet closed (next cfg.net.toNet v.m t) v.pos
  log : ∀ v ∈ V, v.ty ≠ 2 → v.pos < cfg.tr.length → Cov openSet closed v.m (v.pos + 1)
  notFinal : ∀ v ∈ V, ¬ (v.m = fm ∧ v.pos = cfg.tr.length)
  anc : ∀ x ∈ openSet, Anc cfg V x
  ancV : ∀ x ∈ V, Anc cfg V x
  start : Cov openSet closed im 0

omit [DecidableEq A] in
theorem checkClosed_mono {closed : Dict (List Nat) Nat} {m : List Nat} {p q : Nat} (h : checkClosed closed m p = true) (hq : q ≤ p) :
    checkClosed closed m q = true := by
  unfold checkClosed at *
  split at h <;> simp_all; omega

omit [DecidableEq A] in
theorem checkClosed_set {closed : Dict (List Nat) Nat} {m : List Nat} {p : Nat} (hnc : checkClosed closed m p = false)
    {m' : List Nat} {q : Nat} (h : checkClosed closed m' q = true) : checkClosed (Dict.set closed m p) m' q = true := by
  unfold checkClosed at *
  rw [get?_set]
  by_cases hm : m = m'
  · subst hm
    simp only [if_pos]
    split at h
    · rename_i r hr
      rw [hr] at hnc
      simp at hnc h ⊢; omega
    · cases h
  · rw [if_neg hm]; exact h

omit [DecidableEq A] in
theorem checkClosed_self (closed : Dict (List Nat) Nat) (m : List Nat) (p : Nat) : checkClosed (Dict.set closed m p) m p = true := by
  simp [checkClosed, get?_set]

/-- what the expansion of `curr` adds to the open set -/
structure Exp (cfg : Cfg T A) (im : List Nat) (closed : Dict (List Nat) Nat) (curr : S T) (rest : List (S T)) (l : Loc T) : Prop where
  old : ∀ x ∈ rest, x ∈ l.openSet
  new : ∀ x ∈ l.openSet, x ∈ rest ∨ (Valid cfg im x ∧ (∀ V, curr ∈ V → Anc cfg V x))
  closed' : ∀ m ∈ l.thisClosed, Cov l.openSet closed m curr.pos

omit [DecidableEq A] in
theorem Cov.mono {o o' : List (S T)} {closed : Dict (List Nat) Nat} {m : List Nat} {p : Nat} (h : Cov o closed m p)
    (ho : ∀ x ∈ o, x ∈ o') : Cov o' closed m p := by
  rcases h with h | ⟨y, hy, h⟩
  · exact .inl h
  · exact .inr ⟨y, ho y hy, h⟩

theorem mem_addIf {b : Bool} {o : List (S T)} {x y : S T} : y ∈ (if b then o else o ++ [x]) ↔ y ∈ o ∨ (b = false ∧ y = x) := by
  cases b <;> simp

omit [DecidableEq A] in
theorem cov_addIf (closed : Dict (List Nat) Nat) (o : List (S T)) (x : S T) (p q : Nat) (hp : x.pos = p) (hq : q ≤ p) :
    Cov (if checkClosed closed x.m p then o else o ++ [x]) closed x.m q := by
  cases h : checkClosed closed x.m p
  · exact .inr ⟨x, by simp, rfl, by omega⟩
  · exact .inl (checkClosed_mono h hq)

theorem syncStep_exp {cfg : Cfg T A} {im : List Nat} {closed : Dict (List Nat) Nat} {curr : S T} {rest : List (S T)} {l : Loc T}
    (hc : Valid cfg im curr) (h : Exp cfg im closed curr rest l) (t : T) (he : En cfg.net.toNet curr.m t)
    (hs : isSync cfg curr t = true) :
    Exp cfg im closed curr rest (syncStep cfg closed curr l t) ∧
    (∀ m ∈ l.thisClosed, m ∈ (syncStep cfg closed curr l t).thisClosed) ∧
    next cfg.net.toNet curr.m t ∈ (syncStep cfg closed curr l t).thisClosed := by
  have hmem : ∀ x ∈ l.openSet, x ∈ (syncStep cfg closed curr l t).openSet := fun x hx => mem_addIf.2 (.inl hx)
  refine ⟨⟨fun x hx => hmem x (h.old x hx), ?_, ?_⟩, fun m hm => List.mem_cons_of_mem _ hm, List.mem_cons_self⟩
  · intro x hx
    rcases mem_addIf.1 hx with hx | ⟨_, rfl⟩
    · exact h.new x hx
    · exact .inr ⟨.sync hc he hs, fun V _ h2 => by cases h2⟩
  · intro m hm
    rcases List.mem_cons.1 hm with rfl | hm
    · exact cov_addIf closed l.openSet (S.node (curr.cost + cfg.syncCost) (curr.pos + 1) 0 (curr.len + 1) (l.cnt + 1) curr
        (succM cfg curr t) (some t)) (curr.pos + 1) curr.pos rfl (by omega)
    · exact (h.closed' m hm).mono hmem

theorem modelStep_exp {cfg : Cfg T A} {im : List Nat} {closed : Dict (List Nat) Nat} {curr : S T} {rest : List (S T)} {l : Loc T}
    (hc : Valid cfg im curr) (h : Exp cfg im closed curr rest l) (t : T) (he : En cfg.net.toNet curr.m t)
    (hcl : checkClosed closed curr.m curr.pos = true) :
    Exp cfg im closed curr rest (modelStep cfg closed curr l t) ∧
    (∀ m ∈ l.thisClosed, m ∈ (modelStep cfg closed curr l t).thisClosed) ∧
    (∀ x ∈ l.openSet, x ∈ (modelStep cfg closed curr l t).openSet) ∧
    Cov (modelStep cfg closed curr l t).openSet closed (next cfg.net.toNet curr.m t) curr.pos := by
  unfold modelStep
  simp only
  by_cases hif : succM cfg curr t ∉ l.thisClosed ∧ curr.m ≠ succM cfg curr t
  · rw [if_pos hif]
    have hcov := cov_addIf closed l.openSet (S.node (curr.cost + cfg.modelCost t) curr.pos 2 (curr.len + 1) (l.cnt + 1) curr
        (succM cfg curr t) (some t)) curr.pos curr.pos rfl (by omega)
    have hmem : ∀ x ∈ l.openSet, x ∈ (if checkClosed closed (succM cfg curr t) curr.pos = true then l.openSet
      else l.openSet ++ [S.node (curr.cost + cfg.modelCost t) curr.pos 2 (curr.len + 1) (l.cnt + 1) curr
        (succM cfg curr t) (some t)]) := fun x hx => mem_addIf.2 (.inl hx)
    refine ⟨⟨fun x hx => hmem x (h.old x hx), ?_, ?_⟩, fun m hm => List.mem_cons_of_mem _ hm, hmem, hcov⟩
    · intro x hx
      rcases mem_addIf.1 hx with hx | ⟨_, rfl⟩
      · exact h.new x hx
      · exact .inr ⟨.model hc he, fun V hV _ => ⟨hV, rfl, t, he, rfl⟩⟩
    · intro m hm
      rcases List.mem_cons.1 hm with rfl | hm
      · exact hcov
      · exact (h.closed' m hm).mono hmem
  · rw [if_neg hif]
    refine ⟨⟨h.old, h.new, h.closed'⟩, fun _ hm => hm, fun _ hx => hx, ?_⟩
    by_cases hin : succM cfg curr t ∈ l.thisClosed
    · exact h.closed' _ hin
    · have : curr.m = next cfg.net.toNet curr.m t := by
        apply Classical.byContradiction; intro hne; exact hif ⟨hin, hne⟩
      rw [← this]; exact .inl hcl

theorem syncFold_exp {cfg : Cfg T A} {im : List Nat} {closed : Dict (List Nat) Nat} {curr : S T} {rest : List (S T)}
    (hc : Valid cfg im curr) (ts : List T) (hts : ∀ t ∈ ts, En cfg.net.toNet curr.m t ∧ isSync cfg curr t = true)
    (l : Loc T) (h : Exp cfg im closed curr rest l) :
    Exp cfg im closed curr rest (ts.foldl (syncStep cfg closed curr) l) ∧
    (∀ m ∈ l.thisClosed, m ∈ (ts.foldl (syncStep cfg closed curr) l).thisClosed) ∧
    ∀ t ∈ ts, next cfg.net.toNet curr.m t ∈ (ts.foldl (syncStep cfg closed curr) l).thisClosed := by
  induction ts generalizing l with
  | nil => exact ⟨h, fun _ hm => hm, by simp⟩
  | cons t ts ih =>
    obtain ⟨he, hs⟩ := hts t List.mem_cons_self
    obtain ⟨a1, a2, a3⟩ := syncStep_exp hc h t he hs
    obtain ⟨b1, b2, b3⟩ := ih (fun u hu => hts u (List.mem_cons_of_mem _ hu)) _ a1
    refine ⟨b1, fun m hm => b2 m (a2 m hm), ?_⟩
    intro u hu
    rcases List.mem_cons.1 hu with rfl | hu
    · exact b2 _ a3
    · exact b3 u hu

theorem modelFold_exp {cfg : Cfg T A} {im : List Nat} {closed : Dict (List Nat) Nat} {curr : S T} {rest : List (S T)}
    (hc : Valid cfg im curr) (hcl : checkClosed closed curr.m curr.pos = true) (ts : List T)
    (hts : ∀ t ∈ ts, En cfg.net.toNet curr.m t) (l : Loc T) (h : Exp cfg im closed curr rest l) :
    Exp cfg im closed curr rest (ts.foldl (modelStep cfg closed curr) l) ∧
    (∀ m ∈ l.thisClosed, m ∈ (ts.foldl (modelStep cfg closed curr) l).thisClosed) ∧
    (∀ x ∈ l.openSet, x ∈ (ts.foldl (modelStep cfg closed curr) l).openSet) ∧
    ∀ t ∈ ts, Cov (ts.foldl (modelStep cfg closed curr) l).openSet closed (next cfg.net.toNet curr.m t) curr.pos := by
  induction ts generalizing l with
  | nil => exact ⟨h, fun _ hm => hm, fun _ hx => hx, by simp⟩
  | cons t ts ih =>
    obtain ⟨a1, a2, a3, a4⟩ := modelStep_exp hc h t (hts t List.mem_cons_self) hcl
    obtain ⟨b1, b2, b3, b4⟩ := ih (fun u hu => hts u (List.mem_cons_of_mem _ hu)) _ a1
    refine ⟨b1, fun m hm => b2 m (a2 m hm), fun x hx => b3 x (a3 x hx), ?_⟩
    intro u hu
    rcases List.mem_cons.1 hu with rfl | hu
    · exact a4.mono b3
    · exact b4 u hu

theorem logStep_exp {cfg : Cfg T A} {im : List Nat} {closed : Dict (List Nat) Nat} {curr : S T} {rest : List (S T)} {l : Loc T}
    (hc : Valid cfg im curr) (h : Exp cfg im closed curr rest l) :
    Exp cfg im closed curr rest (logStep cfg closed curr l) ∧
    (∀ x ∈ l.openSet, x ∈ (logStep cfg closed curr l).openSet) ∧
    (curr.ty ≠ 2 → curr.pos < cfg.tr.length → Cov (logStep cfg closed curr l).openSet closed curr.m (curr.pos + 1)) := by
  unfold logStep
  by_cases hif : curr.pos < cfg.tr.length ∧ curr.ty ≠ 2
  · rw [if_pos hif]
    simp only
    have hcov := cov_addIf closed l.openSet (S.node (curr.cost + cfg.traceCost curr.pos) (curr.pos + 1) 1 (curr.len + 1) (l.cnt + 1)
      curr curr.m none) (curr.pos + 1) (curr.pos + 1) rfl (by omega)
    have hmem : ∀ x ∈ l.openSet, x ∈ (if checkClosed closed curr.m (curr.pos + 1) = true then l.openSet
      else l.openSet ++ [S.node (curr.cost + cfg.traceCost curr.pos) (curr.pos + 1) 1 (curr.len + 1) (l.cnt + 1)
      curr curr.m none]) := fun x hx => mem_addIf.2 (.inl hx)
    refine ⟨⟨fun x hx => hmem x (h.old x hx), ?_, fun m hm => (h.closed' m hm).mono hmem⟩, hmem, fun _ _ => hcov⟩
    intro x hx
    rcases mem_addIf.1 hx with hx | ⟨_, rfl⟩
    · exact h.new x hx
    · exact .inr ⟨.log hc hif.1, fun V _ h2 => by cases h2⟩
  · rw [if_neg hif]
    exact ⟨h, fun _ hx => hx, fun h1 h2 => absurd ⟨h2, h1⟩ hif⟩

theorem expand_exp {cfg : Cfg T A} (hpl : Plain cfg.net.toNet) {im : List Nat} {closed : Dict (List Nat) Nat} {curr : S T}
    {rest : List (S T)} {cnt : Nat} (hc : Valid cfg im curr) (hcl : checkClosed closed curr.m curr.pos = true) :
    Exp cfg im closed curr rest (expand cfg closed curr rest cnt) ∧
    (∀ t, En cfg.net.toNet curr.m t → Cov (expand cfg closed curr rest cnt).openSet closed (next cfg.net.toNet curr.m t) curr.pos) ∧
    (curr.ty ≠ 2 → curr.pos < cfg.tr.length → Cov (expand cfg closed curr rest cnt).openSet closed curr.m (curr.pos + 1)) := by
  have hen : ∀ t, t ∈ (cfg.net.transitions.filter fun t => dictLeq (preDict cfg.net.toNet t) (decode curr.m)) ↔
      En cfg.net.toNet curr.m t := by
    intro t
    rw [List.mem_filter]
    constructor
    · rintro ⟨h1, h2⟩; exact ⟨h1, (dictLeq_iff _ hpl t h1 _).1 h2⟩
    · rintro ⟨h1, h2⟩; exact ⟨h1, (dictLeq_iff _ hpl t h1 _).2 h2⟩
  unfold expand
  simp only
  generalize (cfg.net.transitions.filter fun t => dictLeq (preDict cfg.net.toNet t) (decode curr.m)) = enT at hen ⊢
  obtain ⟨a1, a2, a3⟩ := syncFold_exp (closed := closed) (rest := rest) hc (enT.filter (isSync cfg curr))
    (fun t ht => ⟨(hen t).1 (List.mem_filter.1 ht).1, (List.mem_filter.1 ht).2⟩) ⟨rest, [], cnt⟩
    ⟨fun _ hx => hx, fun _ hx => .inl hx, by simp⟩
  obtain ⟨b1, b2, b3, b4⟩ := modelFold_exp hc hcl (sortBy cfg.modelCost (enT.filter fun t => !isSync cfg curr t))
    (fun t ht => (hen t).1 (List.mem_filter.1 ((sortBy_perm _ _).mem_iff.1 ht)).1) _ a1
  obtain ⟨c1, c2, c3⟩ := logStep_exp hc b1
  refine ⟨c1, ?_, c3⟩
  intro t ht
  cases hsy : isSync cfg curr t
  · refine (b4 t ((sortBy_perm _ _).mem_iff.2 (List.mem_filter.2 ⟨(hen t).2 ht, by simp [hsy]⟩))).mono c2
  · have := a3 t (List.mem_filter.2 ⟨(hen t).2 ht, hsy⟩)
    exact (b1.closed' _ (b2 _ this)).mono c2

/-! ### The loop -/

omit [DecidableEq A] in
theorem cov_pop {cfg : Cfg T A} {openSet rest : List (S T)} {closed : Dict (List Nat) Nat} {curr : S T} (hp : openSet.Perm (curr :: rest))
    {m : List Nat} {p : Nat} (h : Cov openSet closed m p) (hcl : checkClosed closed curr.m curr.pos = true) : Cov rest closed m p := by
  rcases h with h | ⟨y, hy, rfl, h2⟩
  · exact .inl h
  · rcases List.mem_cons.1 (hp.mem_iff.1 hy) with rfl | hy
    · exact .inl (checkClosed_mono hcl h2)
    · exact .inr ⟨y, hy, rfl, h2⟩

omit [DecidableEq A] in
theorem cov_visit {cfg : Cfg T A} {openSet rest : List (S T)} {closed : Dict (List Nat) Nat} {curr : S T} (hp : openSet.Perm (curr :: rest))
    {m : List Nat} {p : Nat} (h : Cov openSet closed m p) (hcl : checkClosed closed curr.m curr.pos = false) :
    Cov rest (Dict.set closed curr.m curr.pos) m p := by
  rcases h with h | ⟨y, hy, rfl, h2⟩
  · exact .inl (checkClosed_set hcl h)
  · rcases List.mem_cons.1 (hp.mem_iff.1 hy) with rfl | hy
    · exact .inl (checkClosed_mono (checkClosed_self _ _ _) h2)
    · exact .inr ⟨y, hy, rfl, h2⟩

theorem Anc.mono {cfg : Cfg T A} {V V' : List (S T)} {x : S T} (h : Anc cfg V x) (hV : ∀ v ∈ V, v ∈ V') : Anc cfg V' x := by
  cases x with
  | root => trivial
  | node => intro h2; obtain ⟨a, b, c⟩ := h h2; exact ⟨hV _ a, b, c⟩

/-- what holds of the state of the loop -/
def Ok (cfg : Cfg T A) (im fm : List Nat) : R T → Prop
  | .running o c _ => ∃ V, Inv cfg im fm V o c
  | .found x => Valid cfg im x ∧ x.m = fm ∧ x.pos = cfg.tr.length
  | .exhausted => ∃ V c, Inv cfg im fm V [] c

theorem step_ok {cfg : Cfg T A} (hpl : Plain cfg.net.toNet) {im fm : List Nat} {pop : Nat → List (S T) → Option (S T × List (S T))}
    (hpop : PopOk pop) (n : Nat) (r : R T) (h : Ok cfg im fm r) : Ok cfg im fm (step cfg fm pop n r) := by
  cases r with
  | found x => exact h
  | exhausted => exact h
  | running o closed cnt =>
    obtain ⟨V, hI⟩ := h
    by_cases ho : o = []
    · subst ho; simp only [step, hpop.nil]; exact ⟨V, closed, hI⟩
    · obtain ⟨curr, rest, h1, h2, _⟩ := hpop.cons n o ho
      simp only [step, h1]
      have hcurr : curr ∈ o := h2.mem_iff.2 List.mem_cons_self
      have hrest : ∀ x ∈ rest, x ∈ o := fun x hx => h2.mem_iff.2 (List.mem_cons_of_mem _ hx)
      by_cases hcl : checkClosed closed curr.m curr.pos = true
      · rw [if_pos hcl]
        exact ⟨V, ⟨fun x hx => hI.valid x (hrest x hx), hI.validV, hI.closedV,
          fun v hv t ht => cov_pop (cfg := cfg) h2 (hI.succ v hv t ht) hcl, fun v hv a b => cov_pop (cfg := cfg) h2 (hI.log v hv a b) hcl,
          hI.notFinal, fun x hx => hI.anc x (hrest x hx), hI.ancV, cov_pop (cfg := cfg) h2 hI.start hcl⟩⟩
      · rw [if_neg hcl]
        have hcl : checkClosed closed curr.m curr.pos = false := by simpa using hcl
        by_cases hfin : curr.m = fm ∧ curr.pos = cfg.tr.length
        · rw [if_pos hfin]; exact ⟨hI.valid curr hcurr, hfin⟩
        · rw [if_neg hfin]
          have hvc := hI.valid curr hcurr
          obtain ⟨e1, e2, e3⟩ := expand_exp hpl (rest := rest) (cnt := cnt) hvc (checkClosed_self closed curr.m curr.pos)
          have hold := e1.old
          refine ⟨curr :: V, ⟨?_, ?_, ?_, ?_, ?_, ?_, ?_, ?_, ?_⟩⟩
          · intro x hx
            rcases e1.new x hx with hx | hx
            · exact hI.valid x (hrest x hx)
            · exact hx.1
          · intro x hx
            rcases List.mem_cons.1 hx with rfl | hx
            · exact hvc
            · exact hI.validV x hx
          · intro m p hg
            rw [get?_set] at hg
            by_cases hm : curr.m = m
            · rw [if_pos hm] at hg
              cases hg
              exact ⟨curr, List.mem_cons_self, hm, rfl⟩
            · rw [if_neg hm] at hg
              obtain ⟨v, hv, h⟩ := hI.closedV m p hg
              exact ⟨v, List.mem_cons_of_mem _ hv, h⟩
          · intro v hv t ht
            rcases List.mem_cons.1 hv with rfl | hv
            · exact e2 t ht
            · exact (cov_visit (cfg := cfg) h2 (hI.succ v hv t ht) hcl).mono hold
          · intro v hv a b
            rcases List.mem_cons.1 hv with rfl | hv
            · exact e3 a b
            · exact (cov_visit (cfg := cfg) h2 (hI.log v hv a b) hcl).mono hold
          · intro v hv
            rcases List.mem_cons.1 hv with rfl | hv
            · exact hfin
            · exact hI.notFinal v hv
          · intro x hx
            rcases e1.new x hx with hx | hx
            · exact (hI.anc x (hrest x hx)).mono fun v hv => List.mem_cons_of_mem _ hv
            · exact hx.2 _ List.mem_cons_self
          · intro x hx
            rcases List.mem_cons.1 hx with rfl | hx
            · exact (hI.anc _ hcurr).mono fun v hv => List.mem_cons_of_mem _ hv
            · exact (hI.ancV x hx).mono fun v hv => List.mem_cons_of_mem _ hv
          · exact (cov_visit (cfg := cfg) h2 hI.start hcl).mono hold

theorem search_ok {cfg : Cfg T A} (hpl : Plain cfg.net.toNet) (im fm : Marking Nat) {pop : Nat → List (S T) → Option (S T × List (S T))}
    (hpop : PopOk pop) (n : Nat) : Ok cfg (encode im) (encode fm) (search cfg im fm pop n) := by
  induction n with
  | zero =>
    refine ⟨[], ⟨?_, ?_, ?_, ?_, ?_, ?_, ?_, ?_, ?_⟩⟩ <;> try simp
    · exact .root
    · trivial
    · exact .inr ⟨_, List.mem_singleton.2 rfl, rfl, Nat.zero_le _⟩
  | succ n ih => exact step_ok hpl hpop n _ ih

/-! ### What an empty open set means -/

theorem cov_nil {cfg : Cfg T A} {im fm : List Nat} {V : List (S T)} {closed : Dict (List Nat) Nat}
    (hI : Inv cfg im fm V [] closed) {m : List Nat} {p : Nat} (h : Cov (T := T) [] closed m p) : ∃ v ∈ V, v.m = m ∧ p ≤ v.pos := by
  rcases h with h | ⟨y, hy, _⟩
  · unfold checkClosed at h
    split at h
    · rename_i q hq
      obtain ⟨v, hv, h1, h2⟩ := hI.closedV m q hq
      exact ⟨v, hv, h1, by simp at h; omega⟩
    · cases h
  · simp at hy

theorem follow {cfg : Cfg T A} [DecidableEq T] (hpl : Plain cfg.net.toNet) {im fm : List Nat} {V : List (S T)} {closed : Dict (List Nat) Nat}
    (hI : Inv cfg im fm V [] closed) (him : im.Pairwise (· ≤ ·)) (m' : List Nat) (hm' : m'.Pairwise (· ≤ ·)) (ts : List T) :
    ∀ v ∈ V, CRun cfg.net.toNet (tok v.m) ts (tok m') → ∃ w ∈ V, w.m = m' ∧ v.pos ≤ w.pos := by
  induction ts with
  | nil =>
    intro v hv h
    refine ⟨v, hv, ?_, Nat.le_refl _⟩
    exact sorted_ext ((hI.validV v hv).spec hpl him).1 hm' h
  | cons t ts ih =>
    intro v hv h
    obtain ⟨h1, h2, h3⟩ := h
    obtain ⟨w, hw, e, hp⟩ := cov_nil hI (hI.succ v hv t ⟨h1, h2⟩)
    obtain ⟨x, hx, e', hp'⟩ := ih w hw (by
      rw [e, funext (next_tok _ hpl t h1 v.m h2)]; exact h3)
    exact ⟨x, hx, e', by omega⟩

theorem further {cfg : Cfg T A} {im fm : List Nat} {V : List (S T)} {closed : Dict (List Nat) Nat}
    (hI : Inv cfg im fm V [] closed) (v : S T) : v ∈ V → v.pos < cfg.tr.length → ∃ w ∈ V, w.m = v.m ∧ v.pos < w.pos := by
  induction v with
  | root m =>
    intro hv hp
    obtain ⟨w, hw, e, h⟩ := cov_nil hI (hI.log _ hv (by simp [S.ty]) hp)
    exact ⟨w, hw, e, by omega⟩
  | node c pos ty len cnt p m t ih =>
    intro hv hp
    by_cases hty : ty = 2
    · obtain ⟨h1, h2, t', h3, h4⟩ := hI.ancV _ hv hty
      have hp : pos < cfg.tr.length := hp
      obtain ⟨w, hw, e, h⟩ := ih h1 (by omega)
      obtain ⟨x, hx, e', h'⟩ := cov_nil hI (hI.succ w hw t' (by rw [e]; exact h3))
      refine ⟨x, hx, ?_, ?_⟩
      · rw [e', e]; exact h4.symm
      · show pos < x.pos; omega
    · obtain ⟨w, hw, e, h⟩ := cov_nil hI (hI.log _ hv hty hp)
      exact ⟨w, hw, e, by omega⟩

theorem no_run {cfg : Cfg T A} [DecidableEq T] (hpl : Plain cfg.net.toNet) {im fm : List Nat} {V : List (S T)} {closed : Dict (List Nat) Nat}
    (hI : Inv cfg im fm V [] closed) (him : im.Pairwise (· ≤ ·)) (hfm : fm.Pairwise (· ≤ ·)) (ts : List T) :
    ¬ CRun cfg.net.toNet (tok im) ts (tok fm) := by
  intro hr
  have key : ∀ k, k ≤ cfg.tr.length → ∃ v ∈ V, v.m = im ∧ k ≤ v.pos := by
    intro k; induction k with
    | zero =>
      intro _
      exact cov_nil hI hI.start
    | succ k ih =>
      intro hk
      obtain ⟨v, hv, e, h⟩ := ih (by omega)
      by_cases hp : v.pos < cfg.tr.length
      · obtain ⟨w, hw, e', h'⟩ := further hI v hv hp
        exact ⟨w, hw, e'.trans e, by omega⟩
      · exact ⟨v, hv, e, by omega⟩
  obtain ⟨v, hv, e, h⟩ := key _ (Nat.le_refl _)
  obtain ⟨w, hw, e', h'⟩ := follow hpl hI him fm hfm ts v hv (by rw [e]; exact hr)
  have := ((hI.validV w hw).spec hpl him).2.1
  exact hI.notFinal w hw ⟨e', by omega⟩

/-! ### Termination -/

/-- how often a marking can still be visited -/
def rank (len : Nat) (closed : Dict (List Nat) Nat) (m : List Nat) : Nat :=
  match get? closed m with
  | some p => len - p
  | none => len + 1

omit [DecidableEq A] in
theorem rank_set (len : Nat) (closed : Dict (List Nat) Nat) (m : List Nat) (p : Nat) (hp : p ≤ len)
    (h : checkClosed closed m p = false) (m' : List Nat) :
    rank len (Dict.set closed m p) m' ≤ rank len closed m' ∧ rank len (Dict.set closed m p) m < rank len closed m := by
  have key : rank len (Dict.set closed m p) m < rank len closed m := by
    unfold rank
    rw [get?_set, if_pos rfl]
    unfold checkClosed at h
    split at h
    · rename_i q hq
      rw [hq]
      simp at h ⊢; omega
    · rename_i hq
      rw [hq]; simp; omega
  refine ⟨?_, key⟩
  by_cases hm : m = m'
  · subst hm; omega
  · unfold rank; rw [get?_set, if_neg hm]; omega

omit [DecidableEq A] in
theorem rank_sum (len : Nat) (closed : Dict (List Nat) Nat) (m : List Nat) (p : Nat) (hp : p ≤ len)
    (h : checkClosed closed m p = false) (L : List (List Nat)) :
    (L.map (rank len (Dict.set closed m p))).sum ≤ (L.map (rank len closed)).sum ∧
    (m ∈ L → (L.map (rank len (Dict.set closed m p))).sum + 1 ≤ (L.map (rank len closed)).sum) := by
  induction L with
  | nil => simp
  | cons a L ih =>
    have h1 := rank_set len closed m p hp h a
    simp only [List.map_cons, List.sum_cons, List.mem_cons]
    refine ⟨by omega, ?_⟩
    rintro (rfl | hm)
    · omega
    · have := ih.2 hm; omega

omit [DecidableEq A] in
theorem addIf_length (b : Bool) (o : List (S T)) (x : S T) : (if b then o else o ++ [x]).length ≤ o.length + 1 := by
  cases b <;> simp

theorem syncFold_length (cfg : Cfg T A) (closed : Dict (List Nat) Nat) (curr : S T) (ts : List T) (l : Loc T) :
    (ts.foldl (syncStep cfg closed curr) l).openSet.length ≤ l.openSet.length + ts.length := by
  induction ts generalizing l with
  | nil => simp
  | cons t ts ih =>
    have h1 := ih (syncStep cfg closed curr l t)
    have h2 : (syncStep cfg closed curr l t).openSet.length ≤ l.openSet.length + 1 := addIf_length _ _ _
    simp only [List.foldl_cons, List.length_cons]; omega

theorem modelFold_length (cfg : Cfg T A) (closed : Dict (List Nat) Nat) (curr : S T) (ts : List T) (l : Loc T) :
    (ts.foldl (modelStep cfg closed curr) l).openSet.length ≤ l.openSet.length + ts.length := by
  induction ts generalizing l with
  | nil => simp
  | cons t ts ih =>
    have h1 := ih (modelStep cfg closed curr l t)
    have h2 : (modelStep cfg closed curr l t).openSet.length ≤ l.openSet.length + 1 := by
      unfold modelStep; simp only
      split
      · exact addIf_length _ _ _
      · simp
    simp only [List.foldl_cons, List.length_cons]; omega

theorem expand_length (cfg : Cfg T A) (closed : Dict (List Nat) Nat) (curr : S T) (rest : List (S T)) (cnt : Nat) :
    (expand cfg closed curr rest cnt).openSet.length ≤ rest.length + cfg.net.transitions.length + 1 := by
  unfold expand
  simp only
  have h0 : ∀ l : Loc T, (logStep cfg closed curr l).openSet.length ≤ l.openSet.length + 1 := by
    intro l; unfold logStep; split
    · exact addIf_length _ _ _
    · omega
  generalize hE : (cfg.net.transitions.filter fun t => dictLeq (preDict cfg.net.toNet t) (decode curr.m)) = enT
  have hlen : enT.length ≤ cfg.net.transitions.length := by rw [← hE]; exact List.length_filter_le _ _
  have h1 := syncFold_length cfg closed curr (enT.filter (isSync cfg curr)) ⟨rest, [], cnt⟩
  have h2 := modelFold_length cfg closed curr (sortBy cfg.modelCost (enT.filter fun t => !isSync cfg curr t))
    ((enT.filter (isSync cfg curr)).foldl (syncStep cfg closed curr) ⟨rest, [], cnt⟩)
  rw [(sortBy_perm _ _).length_eq] at h2
  have h3 := h0 ((sortBy cfg.modelCost (enT.filter fun t => !isSync cfg curr t)).foldl (modelStep cfg closed curr)
    ((enT.filter (isSync cfg curr)).foldl (syncStep cfg closed curr) ⟨rest, [], cnt⟩))
  have h4 : (enT.filter (isSync cfg curr)).length + (enT.filter fun t => !isSync cfg curr t).length = enT.length := by
    clear h1 h2 h3 hlen hE
    induction enT with
    | nil => rfl
    | cons a l ih => simp only [List.filter_cons]; cases isSync cfg curr a <;> simp <;> omega
  simp only at h1
  omega

/-- number of iterations that can still follow -/
def measure (cfg : Cfg T A) (L : List (List Nat)) (o : List (S T)) (closed : Dict (List Nat) Nat) : Nat :=
  o.length + (cfg.net.transitions.length + 2) * (L.map (rank cfg.tr.length closed)).sum

theorem ends [DecidableEq T] {cfg : Cfg T A} (hpl : Plain cfg.net.toNet) (im fm : Marking Nat)
    {pop : Nat → List (S T) → Option (S T × List (S T))} (hpop : PopOk pop) (L : List (List Nat))
    (hL : ∀ x, Valid cfg (encode im) x → x.m ∈ L) (k : Nat) :
    ∀ n o c cnt, search cfg im fm pop n = .running o c cnt → measure cfg L o c ≤ k →
      ∃ n', search cfg im fm pop n' = .exhausted ∨ ∃ x, search cfg im fm pop n' = .found x := by
  induction k with
  | zero =>
    intro n o c cnt hs hm
    have ho : o = [] := by
      unfold measure at hm
      exact List.length_eq_zero_iff.1 (by omega)
    subst ho
    exact ⟨n + 1, .inl (by simp only [search, hs, step, hpop.nil])⟩
  | succ k ih =>
    intro n o c cnt hs hm
    by_cases ho : o = []
    · subst ho
      exact ⟨n + 1, .inl (by simp only [search, hs, step, hpop.nil])⟩
    · obtain ⟨curr, rest, h1, h2, _⟩ := hpop.cons n o ho
      have hlen := h2.length_eq
      simp only [List.length_cons] at hlen
      have hok := search_ok hpl im fm hpop n
      rw [hs] at hok
      obtain ⟨V, hI⟩ := hok
      have hv := hI.valid curr (h2.mem_iff.2 List.mem_cons_self)
      have hsp := hv.spec hpl (encode_sorted im)
      by_cases hcl : checkClosed c curr.m curr.pos = true
      · refine ih (n + 1) rest c cnt (by simp only [search, hs, step, h1, if_pos hcl]) ?_
        unfold measure at hm ⊢; omega
      · by_cases hfin : curr.m = encode fm ∧ curr.pos = cfg.tr.length
        · exact ⟨n + 1, .inr ⟨curr, by simp only [search, hs, step, h1, if_neg hcl, if_pos hfin]⟩⟩
        · refine ih (n + 1) _ (Dict.set c curr.m curr.pos) _
            (by simp only [search, hs, step, h1, if_neg hcl, if_neg hfin]; rfl) ?_
          have hr := (rank_sum cfg.tr.length c curr.m curr.pos hsp.2.1 (by simpa using hcl) L).2 (hL curr hv)
          have he := expand_length cfg (Dict.set c curr.m curr.pos) curr rest cnt
          have hmul := Nat.mul_le_mul_left (cfg.net.transitions.length + 2) hr
          rw [Nat.mul_add] at hmul
          unfold measure at hm ⊢
          omega

theorem tok_encode_eq {m : Marking Nat} (h : Good m) : tok (encode m) = count m :=
  funext fun p => tok_encode m h.1 (fun p => h.2.count_nonneg p) p

end LM

section
variable {T A : Type} [DecidableEq T] [DecidableEq A]
open LM

/-- C33: whatever the order in which equal items leave the queue, the returned moves are an alignment of the trace, and the
reported cost is the sum of the costs of the moves. -/
theorem C33_valid (cfg : Cfg T A) (hpl : Plain cfg.net.toNet) (im fm : Marking Nat) (hi : Good im) (hf : Good fm)
    (pop : Nat → List (S T) → Option (S T × List (S T))) (hpop : PopOk pop) (n : Nat) (x : S T)
    (h : LM.search cfg im fm pop n = .found x) :
    IsAlignment cfg.tr cfg.net im fm x.alignment ∧
    x.cost = (x.alignment.map (productCost cfg.traceCost cfg.modelCost fun _ _ => cfg.syncCost)).sum := by
  have hok := search_ok hpl im fm hpop n
  rw [h] at hok
  obtain ⟨hv, hm, hp⟩ := hok
  obtain ⟨_, _, h3, h4, h5, h6⟩ := hv.spec hpl (encode_sorted im)
  refine ⟨⟨by rw [h3, hp], ?_, h6⟩, h5⟩
  rw [completeRun_iff _ hpl.simple _ _ _ hi.2, ← tok_encode_eq hi, ← tok_encode_eq hf, ← hm]
  exact h4

/-- C33: if the search ends without a result, the net has no complete run. -/
theorem C33_none (cfg : Cfg T A) (hpl : Plain cfg.net.toNet) (im fm : Marking Nat) (hi : Good im) (hf : Good fm)
    (pop : Nat → List (S T) → Option (S T × List (S T))) (hpop : PopOk pop) (n : Nat)
    (h : LM.search cfg im fm pop n = .exhausted) : ∀ ts, ¬ CompleteRun cfg.net.toNet im fm ts := by
  have hok := search_ok hpl im fm hpop n
  rw [h] at hok
  obtain ⟨V, c, hI⟩ := hok
  intro ts hts
  rw [completeRun_iff _ hpl.simple _ _ _ hi.2, ← tok_encode_eq hi, ← tok_encode_eq hf] at hts
  exact no_run hpl hI (encode_sorted _) (encode_sorted _) ts hts

/-- C33: on a net with finitely many reachable markings the search ends. -/
theorem C33_terminates (cfg : Cfg T A) (hpl : Plain cfg.net.toNet) (im fm : Marking Nat) (hi : Good im)
    (pop : Nat → List (S T) → Option (S T × List (S T))) (hpop : PopOk pop) (L : List (Marking Nat)) (hLg : ∀ x ∈ L, Good x)
    (hL : ∀ (ts : List T) m, ts.foldlM (fun m t => cfg.net.toNet.execute t m) im = some m → ∃ x ∈ L, SameTokens x m) :
    ∃ n, LM.search cfg im fm pop n = .exhausted ∨ ∃ x, LM.search cfg im fm pop n = .found x := by
  refine ends hpl im fm hpop (L.map encode) ?_ _ 0 _ _ _ rfl (Nat.le_refl _)
  intro x hx
  obtain ⟨h1, _, _, h4, _, _⟩ := hx.spec hpl (encode_sorted im)
  rw [tok_encode_eq hi] at h4
  obtain ⟨m', h5, h6⟩ := crun_to_run cfg.net.toNet hpl.simple _ im _ hi.2 h4
  obtain ⟨y, hy, hs⟩ := hL _ m' h5
  refine List.mem_map.2 ⟨y, hy, sorted_ext (encode_sorted _) h1 ?_⟩
  rw [tok_encode_eq (hLg y hy), ← h6]
  exact funext hs

/-- C33: if the net has a complete run and finitely many reachable markings, an alignment is returned. -/
theorem C33_alignment_found (cfg : Cfg T A) (hpl : Plain cfg.net.toNet) (im fm : Marking Nat) (hi : Good im) (hf : Good fm)
    (pop : Nat → List (S T) → Option (S T × List (S T))) (hpop : PopOk pop) (L : List (Marking Nat)) (hLg : ∀ x ∈ L, Good x)
    (hL : ∀ (ts : List T) m, ts.foldlM (fun m t => cfg.net.toNet.execute t m) im = some m → ∃ x ∈ L, SameTokens x m)
    (ts : List T) (hts : CompleteRun cfg.net.toNet im fm ts) :
    ∃ n x, LM.search cfg im fm pop n = .found x ∧ IsAlignment cfg.tr cfg.net im fm x.alignment := by
  obtain ⟨n, h | ⟨x, h⟩⟩ := C33_terminates cfg hpl im fm hi pop hpop L hLg hL
  · exact (C33_none cfg hpl im fm hi hf pop hpop n h ts hts).elim
  · exact ⟨n, x, h, (C33_valid cfg hpl im fm hi hf pop hpop n x h).1⟩

end

/-! ### Examples and refutations -/

/-- a priority queue that meets the contract: take the first minimal state -/
def LM.popMin {T : Type} : List (LM.S T) → Option (LM.S T × List (LM.S T))
  | [] => none
  | x :: l =>
    match LM.popMin l with
    | none => some (x, [])
    | some (y, rest) => if LM.S.lt y x then some (y, x :: rest) else some (x, y :: rest)

theorem LM.lt_trans_false {T : Type} {x y z : LM.S T} (h1 : LM.S.lt x y = false) (h2 : LM.S.lt y z = false) : LM.S.lt x z = false := by
  unfold LM.S.lt at *; grind

theorem LM.lt_asymm {T : Type} {x y : LM.S T} (h1 : LM.S.lt x y = true) : LM.S.lt y x = false := by
  unfold LM.S.lt at *; grind

theorem LM.popMin_ok (T : Type) : LM.PopOk (T := T) fun _ l => LM.popMin l where
  nil _ := rfl
  cons n l hl := by
    induction l with
    | nil => exact absurd rfl hl
    | cons x l ih =>
      cases l with
      | nil => exact ⟨x, [], rfl, List.Perm.refl _, by simp⟩
      | cons y l =>
        obtain ⟨z, rest, h1, h2, h3⟩ := ih (by simp)
        rw [LM.popMin, h1]
        simp only
        by_cases hlt : LM.S.lt z x = true
        · rw [if_pos hlt]
          refine ⟨z, x :: rest, rfl, (h2.cons x).trans (List.Perm.swap _ _ _), ?_⟩
          intro w hw
          rcases List.mem_cons.1 hw with rfl | hw
          · exact LM.lt_asymm hlt
          · exact h3 w hw
        · rw [if_neg hlt]
          have hlt' : LM.S.lt z x = false := by simpa using hlt
          refine ⟨x, z :: rest, rfl, h2.cons x, ?_⟩
          intro w hw
          rcases List.mem_cons.1 hw with rfl | hw
          · exact hlt'
          · exact LM.lt_trans_false (h3 w hw) hlt'

/-- cost and alignment of a finished search -/
def LM.R.result {T : Type} : LM.R T → Option (Int × List (Move Nat T))
  | .found x => some (x.cost, x.alignment)
  | _ => none

/-- the sequence `a`, `c`, `a` -/
def exSeq : LNet Nat Nat String where
  places := [0, 1, 2, 3]
  transitions := [0, 1, 2]
  inArcs t := [(t, 1)]
  outArcs t := [(t + 1, 1)]
  label t := if t = 1 then some "c" else some "a"

theorem plain_of {net : LNet Nat Nat String} (h : ∀ t ∈ net.transitions, (net.inArcs t).length = 1 ∧ (net.outArcs t).length = 1 ∧
    (∀ a ∈ net.inArcs t, a.2 = 1) ∧ ∀ a ∈ net.outArcs t, a.2 = 1) : LM.Plain net.toNet := by
  refine ⟨⟨?_, ?_, ?_⟩, ?_⟩
  · intro t ht
    obtain ⟨a, ha⟩ := List.length_eq_one_iff.1 (h t ht).1
    rw [ha]; simp
  · intro t ht a ha; have := (h t ht).2.2.1 a ha; omega
  · intro t ht a ha; have := (h t ht).2.2.2 a ha; omega
  · intro t ht
    obtain ⟨a, ha⟩ := List.length_eq_one_iff.1 (h t ht).2.1
    rw [ha]; simp

theorem exSeq_plain : LM.Plain exSeq.toNet := plain_of (by decide)

example : (LM.search (LM.defaultCfg exSeq ["a", "a"]) [(0, 1)] [(3, 1)] (fun _ => LM.popMin) 6).result =
    some (10000, [.sync 0 0, .right 1, .sync 1 2]) := by decide

/-- The returned alignment need not be optimal: `⟨c, a⟩` is aligned with the sequence `a`, `c`, `a` at cost 30000 although an
alignment of cost 10000 exists.  The state after the log move on `c` replaces the cheaper one: `closed` keeps one position per
marking. -/
theorem C33_optimal_refuted :
    (LM.search (LM.defaultCfg exSeq ["c", "a"]) [(0, 1)] [(3, 1)] (fun _ => LM.popMin) 8).result.map Prod.fst = some 30000 ∧
    IsAlignment ["c", "a"] exSeq [(0, 1)] [(3, 1)] [.right 0, .sync 0 1, .sync 1 2] ∧
    ([Move.right 0, .sync 0 1, .sync 1 2].map (defaultCost exSeq)).sum = 10000 := by
  refine ⟨by decide, ⟨by decide, ⟨[(3, 1)], by decide, fun _ => rfl⟩, ?_⟩, by decide⟩
  intro i t h
  simp only [List.mem_cons, List.not_mem_nil, or_false, reduceCtorEq, false_or, Move.sync.injEq] at h
  rcases h with ⟨rfl, rfl⟩ | ⟨rfl, rfl⟩
  · exact ⟨"c", by decide, by decide⟩
  · exact ⟨"a", by decide, by decide⟩

/-- two transitions `a` in sequence, or one `a`, followed by `a` and `b` -/
def exTwo : LNet Nat Nat String where
  places := [0, 1, 2, 3, 4]
  transitions := [0, 1, 2, 3, 4]
  inArcs t := if t = 0 ∨ t = 2 then [(0, 1)] else if t = 1 then [(1, 1)] else if t = 3 then [(2, 1)] else [(3, 1)]
  outArcs t := if t = 0 then [(1, 1)] else if t = 1 ∨ t = 2 then [(2, 1)] else if t = 3 then [(3, 1)] else [(4, 1)]
  label t := if t = 4 then some "b" else some "a"

/-- Even a perfectly fitting trace can get a positive cost: `⟨a, a, b⟩` is the trace of the complete run 2, 3, 4, but the
search returns cost 10000. -/
theorem C33_fitting_refuted :
    (LM.search (LM.defaultCfg exTwo ["a", "a", "b"]) [(0, 1)] [(4, 1)] (fun _ => LM.popMin) 9).result.map Prod.fst = some 10000 ∧
    IsAlignment ["a", "a", "b"] exTwo [(0, 1)] [(4, 1)] [.sync 0 2, .sync 1 3, .sync 2 4] ∧
    ([Move.sync 0 2, .sync 1 3, .sync 2 4].map (defaultCost exTwo)).sum = 0 := by
  refine ⟨by decide, ⟨by decide, ⟨[(4, 1)], by decide, fun _ => rfl⟩, ?_⟩, by decide⟩
  intro i t h
  simp only [List.mem_cons, List.not_mem_nil, or_false, Move.sync.injEq] at h
  rcases h with ⟨rfl, rfl⟩ | ⟨rfl, rfl⟩ | ⟨rfl, rfl⟩
  · exact ⟨"a", by decide, by decide⟩
  · exact ⟨"a", by decide, by decide⟩
  · exact ⟨"b", by decide, by decide⟩

/-- The default costs: 10000 for a move on log and for a move on a visible transition, 0 for a synchronous move; a silent
transition costs 1 if a token on each of its input places (as many as it consumes) would enable a transition that carries an
activity of the trace, and 0 otherwise. -/
theorem C33_default_costs {T A : Type} [DecidableEq T] [DecidableEq A] (net : LNet Nat T A) (tr : List A) (h : LM.Plain net.toNet) :
    (LM.defaultCfg net tr).syncCost = 0 ∧ (∀ i, (LM.defaultCfg net tr).traceCost i = 10000) ∧
    (∀ t a, net.label t = some a → (LM.defaultCfg net tr).modelCost t = 10000) ∧
    ∀ t ∈ net.transitions, net.label t = none →
      ((∃ u ∈ net.transitions, (∀ p, arcWeight (net.inArcs u) p ≤ arcWeight (net.inArcs t) p) ∧ ∃ a ∈ tr, net.label u = some a) →
        (LM.defaultCfg net tr).modelCost t = 1) ∧
      ((¬ ∃ u ∈ net.transitions, (∀ p, arcWeight (net.inArcs u) p ≤ arcWeight (net.inArcs t) p) ∧ ∃ a ∈ tr, net.label u = some a) →
        (LM.defaultCfg net tr).modelCost t = 0) := by
  refine ⟨rfl, fun _ => rfl, fun t a ha => by simp [LM.defaultCfg, LM.defaultModelCost, ha], fun t ht hl => ?_⟩
  have key : ((net.toNet.enabledTransitions (LM.preDict net.toNet t)).any fun u =>
        match net.label u with | some a => decide (a ∈ tr) | none => false) = true ↔
      ∃ u ∈ net.transitions, (∀ p, arcWeight (net.inArcs u) p ≤ arcWeight (net.inArcs t) p) ∧ ∃ a ∈ tr, net.label u = some a := by
    simp only [List.any_eq_true, Net.enabledTransitions, List.mem_filter, Net.isEnabled_iff]
    have hc := fun p => LM.preDict_count net.toNet t (h.simple.noParallel t ht) p
    have hle : ∀ u ∈ net.transitions, ((∀ a ∈ net.inArcs u, a.2 ≤ count (LM.preDict net.toNet t) a.1) ↔
        ∀ p, arcWeight (net.inArcs u) p ≤ arcWeight (net.inArcs t) p) := by
      intro u hu
      have hpos : ∀ p, 0 ≤ arcWeight (net.inArcs t) p := fun p => arcWeight_nonneg (fun a ha => Int.le_of_lt (h.simple.inPos t ht a ha)) p
      constructor
      · intro hh p
        by_cases hp : p ∈ (net.inArcs u).map Prod.fst
        · obtain ⟨a, ha, rfl⟩ := List.mem_map.1 hp
          have := hh a ha
          rw [hc] at this
          rwa [arcWeight_of_mem_nodup (h.simple.noParallel u hu) ha]
        · rw [arcWeight_eq_zero hp]; exact hpos p
      · intro hh a ha
        rw [hc]
        have := hh a.1
        rwa [arcWeight_of_mem_nodup (h.simple.noParallel u hu) ha] at this
    constructor
    · rintro ⟨u, ⟨hu, _, h2⟩, h3⟩
      refine ⟨u, hu, (hle u hu).1 h2, ?_⟩
      cases hlu : net.label u with
      | none => simp [hlu] at h3
      | some a => exact ⟨a, by simpa [hlu] using h3, rfl⟩
    · rintro ⟨u, hu, h2, a, ha, hlu⟩
      exact ⟨u, ⟨hu, hu, (hle u hu).2 h2⟩, by simp [hlu, ha]⟩
  constructor
  · intro hh
    simp only [LM.defaultCfg, LM.defaultModelCost, hl]
    exact if_pos (key.2 hh)
  · intro hh
    simp only [LM.defaultCfg, LM.defaultModelCost, hl]
    exact if_neg (fun hk => hh (key.1 hk))

/-- a silent transition that competes with `a` for the first token, and one that does not compete -/
def exSilent : LNet Nat Nat String where
  places := [0, 1, 2]
  transitions := [0, 1, 2]
  inArcs t := if t = 2 then [(1, 1)] else [(0, 1)]
  outArcs t := if t = 2 then [(2, 1)] else [(1, 1)]
  label t := if t = 0 then some "a" else none

example : LM.Plain exSilent.toNet ∧ (LM.defaultCfg exSilent ["a"]).modelCost 1 = 1 ∧ (LM.defaultCfg exSilent ["a"]).modelCost 2 = 0 ∧
    (LM.defaultCfg exSilent ["b"]).modelCost 1 = 0 := ⟨plain_of (by decide), by decide, by decide, by decide⟩

end Verif
