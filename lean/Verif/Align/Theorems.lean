import Verif.Align.Search
/-
Property theorems C06: Dijkstra alignments (dijkstra_no_heuristics.py) are valid, optimal and found.
-/
namespace Verif
open Dict Reach Align

section
variable {P T A : Type} [DecidableEq P] [DecidableEq T] [DecidableEq A]

/-- C06: whatever the tie-breaking, a returned alignment is a complete run, its reported cost is the sum of the costs of
its moves, and no complete run is cheaper. -/
theorem C06_optimal (net : LNet P T (Cell A × Cell A)) (hs : net.toNet.Simple) (cost : T → Int) (hc : ∀ t, 0 ≤ cost t)
    (im fm : Marking P) (hi : Good im) (hf : Good fm) (sch : Sched (Marking P) T) (hsch : sch.Ok) (n : Nat)
    (x : Tup (Marking P) T) (h : search (searchSem net) cost im fm sch n = .found x) :
    CompleteRun net.toNet im fm x.alignment ∧ x.g = (x.alignment.map cost).sum ∧
    ∀ ts, CompleteRun net.toNet im fm ts → x.g ≤ (ts.map cost).sum := by
  have hi' := search_inv (fin := fm) (search_lawful net hs im hi) hc sch hsch n
  rw [h] at hi'
  obtain ⟨hv, he, hopt⟩ := hi'
  obtain ⟨h1, h2, _⟩ := hv.path
  refine ⟨(completeRun_path net hs im fm hi hf _).2 ⟨_, h1, he⟩, h2, fun ts hts => ?_⟩
  obtain ⟨m, hp, hm⟩ := (completeRun_path net hs im fm hi hf _).1 hts
  exact hopt ts m hp hm

/-- C06: if the search ends without a result, there is no complete run. -/
theorem C06_none (net : LNet P T (Cell A × Cell A)) (hs : net.toNet.Simple) (cost : T → Int) (hc : ∀ t, 0 ≤ cost t)
    (im fm : Marking P) (hi : Good im) (hf : Good fm) (sch : Sched (Marking P) T) (hsch : sch.Ok) (n : Nat)
    (h : search (searchSem net) cost im fm sch n = .exhausted) : ∀ ts, ¬ CompleteRun net.toNet im fm ts := by
  have hi' := search_inv (fin := fm) (search_lawful net hs im hi) hc sch hsch n
  rw [h] at hi'
  intro ts hts
  obtain ⟨m, hp, hm⟩ := (completeRun_path net hs im fm hi hf _).1 hts
  have := hi' ts m hp
  rw [hm] at this; cases this

omit [DecidableEq P] [DecidableEq A] in
theorem nodup_subset_length {X : Type} [DecidableEq X] {l m : List X} (hl : l.Nodup) (h : ∀ x ∈ l, x ∈ m) : l.length ≤ m.length := by
  induction l generalizing m with
  | nil => simp
  | cons x l ih =>
    rw [List.nodup_cons] at hl
    have hx := h x List.mem_cons_self
    have := ih (m := m.erase x) hl.2 (fun y hy => (List.mem_erase_of_ne (by rintro rfl; exact hl.1 hy)).2 (h y (List.mem_cons_of_mem _ hy)))
    rw [List.length_erase_of_mem hx] at this
    have := List.length_pos_of_mem hx
    simp only [List.length_cons]; omega

theorem enabled_length (net : LNet P T (Cell A × Cell A)) (hs : net.toNet.Simple) (hn : net.transitions.Nodup)
    (m : Marking P) (hm : Pos m) : ((searchSem net).enabled m).length ≤ net.transitions.length := by
  refine nodup_subset_length ?_ ?_
  · exact List.Sublist.nodup List.filter_sublist (nodup_enabledTrans _ hn m)
  · intro t ht
    have := (mem_sem_enabled net hs m hm t).1 ht
    exact ((Net.isEnabled_iff _ _ _).1 this).1

/-- C06: on a net with finitely many reachable markings the search ends. -/
theorem C06_terminates (net : LNet P T (Cell A × Cell A)) (hs : net.toNet.Simple) (hn : net.transitions.Nodup)
    (cost : T → Int) (hc : ∀ t, 0 ≤ cost t) (im fm : Marking P) (hi : Good im) (sch : Sched (Marking P) T)
    (hsch : sch.Ok) (L : List (Marking P))
    (hL : ∀ (ts : List T) m, ts.foldlM (fun m t => net.toNet.execute t m) im = some m → ∃ x ∈ L, SameTokens x m)
    (hLg : ∀ x ∈ L, Pos x) :
    ∃ n, search (searchSem net) cost im fm sch n = .exhausted ∨ ∃ x, search (searchSem net) cost im fm sch n = .found x := by
  obtain ⟨n, h⟩ := terminates_finite (fin := fm) (search_lawful net hs im hi) hc sch hsch L (by
      intro m hm
      have hex : ∃ ts, Path (searchSem net) im ts m := by
        clear hL
        induction hm with
        | refl => exact ⟨_, .nil⟩
        | step _ hst ih =>
          obtain ⟨ts, hp⟩ := ih
          obtain ⟨h1, rfl⟩ := hst
          exact ⟨_, .snoc hp h1⟩
      obtain ⟨ts, hp⟩ := hex
      have hc' := (path_iff net hs im hi ts (count m)).1 ⟨m, hp, rfl⟩
      obtain ⟨m', h1, h2⟩ := crun_to_run net.toNet hs ts im _ hi.2 hc'
      obtain ⟨x, hx, hxe⟩ := hL ts m' h1
      exact ⟨x, hx, (C02_eq _ _ (hLg x hx) (reachable_good net hs im hi hm).2).2 fun p => by rw [hxe p, h2]⟩)
    net.transitions.length (fun m hm => enabled_length net hs hn m (reachable_good net hs im hi hm).2)
  refine ⟨n, ?_⟩
  cases hst : search (searchSem net) cost im fm sch n with
  | running o c => rw [hst] at h; exact h.elim
  | found x => exact .inr ⟨x, rfl⟩
  | exhausted => exact .inl rfl

/-! ### Aligning a trace with a net -/

/-- default costs of `apply` (dijkstra_no_heuristics.py:123-140): 10000 for a move on log or a visible move on model,
1 for a silent transition, 0 for a synchronous move -/
def defaultCost (net : LNet P T A) : Move Nat T → Int :=
  productCost (fun _ => 10000) (fun t => if (net.label t).isNone then 1 else 10000) (fun _ _ => 0)

/-- `apply` / `apply_trace_net` (dijkstra_no_heuristics.py:83-147, 245-305): the search on the product with the trace net,
after `n` iterations. -/
def alignTrace (tr : List A) (net : LNet P T A) (im fm : Marking P) (cost : Move Nat T → Int)
    (sch : Sched (Marking (Nat ⊕ P)) (Move Nat T)) (n : Nat) : St (Marking (Nat ⊕ P)) (Move Nat T) :=
  search (searchSem (product (traceNet tr) net)) cost (productMarking traceIm im) (productMarking (traceFm tr) fm) sch n

omit [DecidableEq T] in
/-- C06: the costs of `construct_standard_cost_function` and the default costs of `apply` are the same on the product
with a trace net. -/
theorem C06_standard_costs (tr : List A) (net : LNet P T A) (mv : Move Nat T)
    (h : mv ∈ (product (traceNet tr) net).transitions) :
    ((product (traceNet tr) net).label mv).map standardCost = some (defaultCost net mv) := by
  have hm := (mem_product_iff _ _ mv).1 h
  have hlt : ∀ i ∈ mv.fst?, ∃ a, (traceNet tr).label i = some a := by
    intro i hi
    have := hm.2.1 i hi
    simp only [traceNet, List.mem_range] at this ⊢
    exact ⟨tr[i], by simp [this]⟩
  cases mv with
  | left i =>
    obtain ⟨a, ha⟩ := hlt i rfl
    simp [product, standardCost, defaultCost, productCost, ha]
  | right t =>
    cases hl : net.label t <;> simp [product, standardCost, defaultCost, productCost, hl]
  | sync i t =>
    simp [product, standardCost, defaultCost, productCost]

theorem good_single {Q : Type} [DecidableEq Q] (q : Q) : Good ([(q, 1)] : Marking Q) := ⟨by simp [keys], pos_single q⟩

omit [DecidableEq T] in
theorem good_product {P1 P2 : Type} [DecidableEq P1] [DecidableEq P2] {m1 : Marking P1} {m2 : Marking P2} (h1 : Good m1) (h2 : Good m2) :
    Good (productMarking m1 m2) := ⟨productMarking_nodup _ _, productMarking_pos _ _ h1.1 h2.1 h1.2 h2.2⟩

/-- C05 and C06 together: the alignment computed for a trace and a unit-weight net is an alignment, and no alignment is
cheaper. -/
theorem C06_trace_alignment (tr : List A) (net : LNet P T A) (hs : net.toNet.Simple) (hu : UnitWeights net.toNet)
    (im fm : Marking P) (hi : Good im) (hf : Good fm) (cost : Move Nat T → Int) (hc : ∀ mv, 0 ≤ cost mv)
    (sch : Sched (Marking (Nat ⊕ P)) (Move Nat T)) (hsch : sch.Ok) (n : Nat) :
    (∀ x, alignTrace tr net im fm cost sch n = .found x →
      IsAlignment tr net im fm x.alignment ∧ x.g = (x.alignment.map cost).sum ∧
      ∀ s, IsAlignment tr net im fm s → x.g ≤ (s.map cost).sum) ∧
    (alignTrace tr net im fm cost sch n = .exhausted → ∀ ts, ¬ CompleteRun net.toNet im fm ts) := by
  have hsimp := product_simple (traceNet tr) net (traceNet_simple tr) hs
  have g1 : Good (productMarking traceIm im) := good_product (good_single 0) hi
  have g2 : Good (productMarking (traceFm tr) fm) := good_product (good_single tr.length) hf
  have h5 := C05_runs_are_alignments tr net hs hu im fm hi.1 hf.1 hi.2
  constructor
  · intro x hx
    obtain ⟨h1, h2, h3⟩ := C06_optimal (product (traceNet tr) net) hsimp cost hc _ _ g1 g2 sch hsch n x hx
    exact ⟨(h5 _).1 h1, h2, fun s hal => h3 s ((h5 s).2 hal)⟩
  · intro hx ts hts
    obtain ⟨s, hal⟩ := C05_alignment_exists tr net im fm ts hts
    exact C06_none (product (traceNet tr) net) hsimp cost hc _ _ g1 g2 sch hsch n hx s ((h5 s).2 hal)

omit [DecidableEq P] [DecidableEq A] in
theorem flatMap_nodup {X Y : Type} (l : List X) (f : X → List Y) (hl : l.Nodup) (hf : ∀ x ∈ l, (f x).Nodup)
    (hd : ∀ x ∈ l, ∀ y ∈ l, x ≠ y → ∀ z ∈ f x, z ∉ f y) : (l.flatMap f).Nodup := by
  induction l with
  | nil => simp
  | cons x l ih =>
    rw [List.nodup_cons] at hl
    rw [List.flatMap_cons, List.nodup_append]
    refine ⟨hf x List.mem_cons_self, ih hl.2 (fun y hy => hf y (List.mem_cons_of_mem _ hy))
      (fun y hy z hz => hd y (List.mem_cons_of_mem _ hy) z (List.mem_cons_of_mem _ hz)), ?_⟩
    intro a ha b hb
    obtain ⟨y, hy, hby⟩ := List.mem_flatMap.1 hb
    rintro rfl
    exact hd x List.mem_cons_self y (List.mem_cons_of_mem _ hy) (by rintro rfl; exact hl.1 hy) a ha hby

omit [DecidableEq P] [DecidableEq T] in
theorem product_nodup {P1 P2 T1 T2 : Type} (n1 : LNet P1 T1 A) (n2 : LNet P2 T2 A) (h1 : n1.transitions.Nodup)
    (h2 : n2.transitions.Nodup) : (product n1 n2).transitions.Nodup := by
  simp only [product]
  rw [List.nodup_append, List.nodup_append]
  refine ⟨⟨h1.map _ (by simp), h2.map _ (by simp), ?_⟩, ?_, ?_⟩
  · intro a ha b hb
    obtain ⟨x, _, rfl⟩ := List.mem_map.1 ha
    obtain ⟨y, _, rfl⟩ := List.mem_map.1 hb
    simp
  · refine flatMap_nodup _ _ h1 (fun x _ => ?_) ?_
    · exact (List.Sublist.nodup List.filter_sublist h2).map _ (by simp)
    · intro x _ y _ hxy z hz hz'
      obtain ⟨u, _, rfl⟩ := List.mem_map.1 hz
      obtain ⟨v, _, hv⟩ := List.mem_map.1 hz'
      simp only [Move.sync.injEq] at hv
      exact hxy hv.1.symm
  · intro a ha b hb
    obtain ⟨x, _, hx⟩ := List.mem_flatMap.1 hb
    obtain ⟨y, _, rfl⟩ := List.mem_map.1 hx
    rcases List.mem_append.1 ha with ha | ha <;> obtain ⟨z, _, rfl⟩ := List.mem_map.1 ha <;> simp

omit [DecidableEq P] [DecidableEq T] [DecidableEq A] in
theorem moves_length (s : List (Move Nat T)) (cost : Move Nat T → Int) (hc : ∀ mv, 0 ≤ cost mv) (hr : ∀ t, 1 ≤ cost (.right t)) :
    (s.length : Int) ≤ (s.filterMap Move.fst?).length + (s.map cost).sum := by
  induction s with
  | nil => simp
  | cons mv s ih =>
    have := hc mv
    cases mv with
    | left i => simp [List.filterMap_cons, Move.fst?]; omega
    | right t => have := hr t; simp [List.filterMap_cons, Move.fst?]; omega
    | sync i t => simp [List.filterMap_cons, Move.fst?]; omega

/-- C06: if the net has a complete run at all, an alignment is found (even if the net has infinitely many reachable
markings), provided that moves on model cost at least 1, which the default costs satisfy. -/
theorem C06_alignment_found (tr : List A) (net : LNet P T A) (hs : net.toNet.Simple) (hu : UnitWeights net.toNet)
    (hn : net.transitions.Nodup) (im fm : Marking P) (hi : Good im) (hf : Good fm) (cost : Move Nat T → Int)
    (hc : ∀ mv, 0 ≤ cost mv) (hr : ∀ t, 1 ≤ cost (.right t)) (sch : Sched (Marking (Nat ⊕ P)) (Move Nat T)) (hsch : sch.Ok)
    (ts : List T) (hts : CompleteRun net.toNet im fm ts) : ∃ n x, alignTrace tr net im fm cost sch n = .found x := by
  have hsimp := product_simple (traceNet tr) net (traceNet_simple tr) hs
  have g1 : Good (productMarking traceIm im) := good_product (good_single 0) hi
  have g2 : Good (productMarking (traceFm tr) fm) := good_product (good_single tr.length) hf
  obtain ⟨s, hal⟩ := C05_alignment_exists tr net im fm ts hts
  have hrun := (C05_runs_are_alignments tr net hs hu im fm hi.1 hf.1 hi.2 s).2 hal
  obtain ⟨m, hp, hm⟩ := (completeRun_path (product (traceNet tr) net) hsimp _ _ g1 g2 s).1 hrun
  have hnd : (product (traceNet tr) net).transitions.Nodup :=
    product_nodup _ _ (by simp [traceNet, List.nodup_range]) hn
  obtain ⟨n, h⟩ := terminates_bounded (search_lawful (product (traceNet tr) net) hsimp _ g1) hc sch hsch s m hp hm
    (tr.length + (totalCost cost s).toNat) (by
      intro s' m' hp' hle
      have hcr := (path_iff (product (traceNet tr) net) hsimp _ g1 s' (count m')).1 ⟨m', hp', rfl⟩
      rw [crun_product _ _ (traceNet_unit tr) hu _ _ _ (fun p => g1.2.count_nonneg p)] at hcr
      have h1 := hcr.2.1
      have e : (fun p => count (productMarking traceIm im) (Sum.inl p)) = one 0 := by
        rw [← count_traceIm]; funext p
        simp [count, get?_productMarking traceIm im (good_single 0).1 hi.1]
      rw [e, crun_trace] at h1
      have h2 : (s'.filterMap Move.fst?).length ≤ tr.length := by
        rcases h1.2.1 with h | h
        · rw [h]; simp
        · omega
      have h3 := moves_length s' cost hc hr
      unfold totalCost at hle ⊢
      omega)
    (product (traceNet tr) net).transitions.length
    (fun m hm => enabled_length _ hsimp hnd m (reachable_good _ hsimp _ g1 hm).2)
  refine ⟨n, ?_⟩
  cases hst : alignTrace tr net im fm cost sch n with
  | running o c => rw [alignTrace] at hst; rw [hst] at h; exact h.elim
  | found x => exact ⟨x, rfl⟩
  | exhausted =>
    exact ((C06_trace_alignment tr net hs hu im fm hi hf cost hc sch hsch n).2 hst ts hts).elim

end

/-! ### Example -/

/-- a priority queue that meets the contract: take the first minimal tuple -/
def popMin {S T : Type} : List (Tup S T) → Option (Tup S T × List (Tup S T))
  | [] => none
  | x :: l =>
    match popMin l with
    | none => some (x, [])
    | some (y, rest) => if Tup.lt y x then some (y, x :: rest) else some (x, y :: rest)

theorem lt_trans_false {S T : Type} {x y z : Tup S T} (h1 : Tup.lt x y = false) (h2 : Tup.lt y z = false) : Tup.lt x z = false := by
  unfold Tup.lt at *; grind

theorem lt_asymm {S T : Type} {x y : Tup S T} (h1 : Tup.lt x y = true) : Tup.lt y x = false := by
  unfold Tup.lt at *; grind

theorem popMin_spec {S T : Type} (l : List (Tup S T)) (hl : l ≠ []) :
    ∃ x rest, popMin l = some (x, rest) ∧ l.Perm (x :: rest) ∧ ∀ y ∈ rest, Tup.lt y x = false := by
  induction l with
  | nil => exact absurd rfl hl
  | cons x l ih =>
    cases l with
    | nil => exact ⟨x, [], rfl, List.Perm.refl _, by simp⟩
    | cons y l =>
      obtain ⟨z, rest, h1, h2, h3⟩ := ih (by simp)
      rw [popMin, h1]
      simp only
      by_cases hlt : Tup.lt z x = true
      · rw [if_pos hlt]
        refine ⟨z, x :: rest, rfl, (h2.cons x).trans (List.Perm.swap _ _ _), ?_⟩
        intro w hw
        rcases List.mem_cons.1 hw with rfl | hw
        · exact lt_asymm hlt
        · exact h3 w hw
      · rw [if_neg hlt]
        have hlt' : Tup.lt z x = false := by simpa using hlt
        refine ⟨x, z :: rest, rfl, h2.cons x, ?_⟩
        intro w hw
        rcases List.mem_cons.1 hw with rfl | hw
        · exact hlt'
        · exact lt_trans_false (h3 w hw) hlt'

/-- a schedule that meets the contract -/
def exSched (S T : Type) : Sched S T := ⟨fun _ l => popMin l, fun _ l => l⟩

theorem exSched_ok (S T : Type) : (exSched S T).Ok where
  pop_nil _ := rfl
  pop_cons _ l h := popMin_spec l h
  ord_perm _ _ := List.Perm.refl _

/-- cost and alignment of a finished search -/
def Align.St.result {S T : Type} : St S T → Option (Int × List T)
  | .found x => some (x.g, x.alignment)
  | _ => none

/-- the trace `⟨a, c⟩` is aligned with `exAlign` at cost 10001: synchronous `a`, one silent move, log move `c` -/
example : (alignTrace ["a", "c"] exAlign [(0, 1)] [(2, 1)] (defaultCost exAlign) (exSched _ _) 8).result =
    some (10001, [.sync 0 0, .right 1, .left 1]) := by decide

example : CompleteRun exAlign.toNet [(0, 1)] [(2, 1)] [0, 1] := ⟨[(2, 1)], by decide, fun _ => rfl⟩

end Verif
