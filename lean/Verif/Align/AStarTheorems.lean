import Verif.Align.AStarTerm
import Verif.Align.Theorems
import Verif.Petri.Incidence
/-
C38: alignments with the A* search and the marking equation.
-/
set_option linter.unusedSectionVars false
namespace Verif
open Dict Reach Align
namespace Align
section
variable {P T A : Type} [DecidableEq P] [DecidableEq T] [DecidableEq A]

/-- The constraints `A x = b` handed to the solver for a marking (AU:247-250; AS:435-441): the incidence matrix, and
`b` the encoded final marking minus the encoded marking. -/
def markingEquation (net : Net P T) (fm m : Marking P) (x : T → Rat) : Prop :=
  (Incidence.construct net).map (fun row => (List.zipWith (fun (a : Int) t => (a : Rat) * x t) row net.transitions).sum) =
    List.zipWith (fun (a b : Int) => (a : Rat) - b) (Incidence.encode net fm) (Incidence.encode net m)

/-- `__search` on a net (AS:425-532): rows and columns as in `net.places`, `net.transitions` -/
def astarNet (net : LNet P T (Cell A × Cell A)) (cost : T → Int) (lp : Marking P → Rat × (T → Rat)) (im fm : Marking P)
    (sch : ASched (Marking P) T) (n : Nat) : ASt (Marking P) T :=
  astar (searchSem net) cost net.transitions lp im fm sch n

/-- `apply` of state_equation_a_star.py (AS:104-172, 315-397): the search on the synchronous product with the trace net -/
def astarTrace (tr : List A) (net : LNet P T A) (im fm : Marking P) (cost : Move Nat T → Int)
    (lp : Marking (Nat ⊕ P) → Rat × (Move Nat T → Rat)) (sch : ASched (Marking (Nat ⊕ P)) (Move Nat T)) (n : Nat) :
    ASt (Marking (Nat ⊕ P)) (Move Nat T) :=
  astarNet (product (traceNet tr) net) cost lp (productMarking traceIm im) (productMarking (traceFm tr) fm) sch n

/-- effect of `t` on `p` -/
def effect (net : Net P T) (p : P) (t : T) : Int := arcWeight (net.outArcs t) p - arcWeight (net.inArcs t) p

theorem markingEquation_iff (net : Net P T) (hu : Incidence.Unit net) (fm m : Marking P) (hf : Good fm) (hm : Good m)
    (kf : ∀ p ∈ keys fm, p ∈ net.places) (km : ∀ p ∈ keys m, p ∈ net.places) (x : T → Rat) :
    markingEquation net fm m x ↔
      ∀ p ∈ net.places, dotc (effect net p) net.transitions x = (count fm p : Rat) - count m p := by
  unfold markingEquation
  rw [Incidence.construct_eq net hu, Incidence.encode_eq net hu.places_nodup fm hf.1 kf,
    Incidence.encode_eq net hu.places_nodup m hm.1 km, List.map_map, List.zipWith_map]
  have hrow : ∀ p, (List.zipWith (fun (a : Int) t => (a : Rat) * x t) (net.transitions.map (effect net p)) net.transitions).sum =
      dotc (effect net p) net.transitions x := by
    intro p
    unfold dotc
    congr 1
    generalize net.transitions = l
    induction l with
    | nil => rfl
    | cons t l ih => simp [ih]
  have e1 : (net.places.map ((fun row => (List.zipWith (fun (a : Int) t => (a : Rat) * x t) row net.transitions).sum) ∘
      fun p => net.transitions.map fun t => arcWeight (net.outArcs t) p - arcWeight (net.inArcs t) p)) =
      net.places.map fun p => dotc (effect net p) net.transitions x := by
    apply List.map_congr_left
    intro p _
    exact hrow p
  have e2 : ∀ l : List P, List.zipWith (fun a b => (count fm a : Rat) - count m b) l l =
      l.map fun p => (count fm p : Rat) - count m p := by
    intro l; induction l with
    | nil => rfl
    | cons p l ih => simp [ih]
  rw [e1, e2, List.map_inj_left]

variable (net : LNet P T (Cell A × Cell A))

theorem reachable_places (hs : net.toNet.Simple) (hu : Incidence.Unit net.toNet) (im : Marking P) (hi : Good im)
    (ki : ∀ p ∈ keys im, p ∈ net.places) {m : Marking P} (h : Reachable (searchSem net) im m) :
    ∀ p ∈ keys m, p ∈ net.places := by
  induction h with
  | refl => exact ki
  | @step m t m' hr hst ih =>
    obtain ⟨ht, rfl⟩ := hst
    have hg := reachable_good net hs im hi hr
    have he := (mem_sem_enabled net hs _ hg.2 _).1 ht
    obtain ⟨h1, h2⟩ := exec_spec net.toNet hs t m hg he
    have htm := ((Net.isEnabled_iff _ _ _).1 he).1
    intro p hp
    by_contra hnp
    have hc0 : count m p = 0 := by
      have : get? m p = none := by
        rw [← Option.not_isSome_iff_eq_none]
        intro hh
        exact hnp (ih p ((mem_keys_iff _ _).2 hh))
      simp [count, this]
    have hw : ∀ as : List (P × Int), (∀ a ∈ as, a.1 ∈ net.places) → arcWeight as p = 0 := by
      intro as; induction as with
      | nil => simp
      | cons a as ih2 =>
        intro h
        rw [arcWeight_cons, ih2 fun b hb => h b (List.mem_cons_of_mem _ hb)]
        have : a.1 ≠ p := fun e => hnp (e ▸ h a List.mem_cons_self)
        simp [this]
    have h3 := h2 p
    rw [hc0, hw _ fun a ha => (hu.inOne t htm a ha).2, hw _ fun a ha => (hu.outOne t htm a ha).2] at h3
    have h4 := (mem_keys_iff _ _).1 hp
    change (get? (addMarkings m (addMarking net.toNet t)) p).isSome = true at h4
    rw [h1.2.get?_eq] at h4
    simp at h3
    simp [h3] at h4

theorem reachable_listed (hs : net.toNet.Simple) (im : Marking P) (hi : Good im) (L : List (Marking P))
    (hL : ∀ (ts : List T) m, ts.foldlM (fun m t => net.toNet.execute t m) im = some m → ∃ x ∈ L, SameTokens x m)
    (hLg : ∀ x ∈ L, Pos x) {m : Marking P} (hm : Reachable (searchSem net) im m) :
    ∃ x ∈ L, (searchSem net).eqv x m = true := by
  have hex : ∃ ts, Path (searchSem net) im ts m := by
    clear hL
    induction hm with
    | refl => exact ⟨_, .nil⟩
    | step _ hst ih =>
      obtain ⟨ts, hp⟩ := ih
      obtain ⟨h1, rfl⟩ := hst
      exact ⟨_, .snoc hp h1⟩
  obtain ⟨ts, hp⟩ := hex
  have hc' := (path_iff net hs im hi ts (count m)).1 ⟨m, hp, rfl⟩
  obtain ⟨m', h1, h2⟩ := crun_to_run net.toNet hs ts im _ hi.2 hc'
  obtain ⟨x, hx, hxe⟩ := hL ts m' h1
  exact ⟨x, hx, (C02_eq _ _ (hLg x hx) (reachable_good net hs im hi hm).2).2 fun p => by rw [hxe p, h2]⟩

theorem markingEq_net (hs : net.toNet.Simple) (hu : Incidence.Unit net.toNet) (im fm : Marking P) (hi : Good im) (hf : Good fm)
    (ki : ∀ p ∈ keys im, p ∈ net.places) (kf : ∀ p ∈ keys fm, p ∈ net.places) :
    MarkingEq (searchSem net) im fm net.transitions (markingEquation net.toNet fm) where
  nodup := hu.trans_nodup
  mem m t hr ht := ((Net.isEnabled_iff _ _ _).1 ((mem_sem_enabled net hs m (reachable_good net hs im hi hr).2 t).1 ht)).1
  shift m t hr ht x := by
    have hg := reachable_good net hs im hi hr
    have he := (mem_sem_enabled net hs m hg.2 t).1 ht
    have htm := ((Net.isEnabled_iff _ _ _).1 he).1
    have hr' : Reachable (searchSem net) im ((searchSem net).exec t m) := .step hr ⟨ht, rfl⟩
    rw [markingEquation_iff _ hu _ _ hf hg kf (reachable_places net hs hu im hi ki hr),
      markingEquation_iff _ hu _ _ hf (reachable_good net hs im hi hr') kf (reachable_places net hs hu im hi ki hr')]
    have hcount := (exec_spec net.toNet hs t m hg he).2
    refine forall_congr' fun p => forall_congr' fun _ => ?_
    have hd := dotc_decr (effect net.toNet p) net.transitions hu.trans_nodup x t htm
    unfold decr at hd
    rw [hd]
    have h3 : (count ((searchSem net).exec t m) p : Rat) = count m p + effect net.toNet p t := by
      have : count ((searchSem net).exec t m) p = count m p + effect net.toNet p t := by
        have := hcount p
        unfold effect
        show count (addMarkings m (addMarking net.toNet t)) p = _
        omega
      exact_mod_cast this
    rw [h3]
    constructor <;> intro h <;> linarith
  congr a b x ha hb hab hx := by
    rw [markingEquation_iff _ hu _ _ hf (reachable_good net hs im hi ha) kf (reachable_places net hs hu im hi ki ha)] at hx
    rw [markingEquation_iff _ hu _ _ hf (reachable_good net hs im hi hb) kf (reachable_places net hs hu im hi ki hb)]
    intro p hp
    rw [hx p hp]
    have := (C02_eq _ _ (reachable_good net hs im hi ha).2 (reachable_good net hs im hi hb).2).1 hab p
    rw [this]
  final m hm he := by
    rw [markingEquation_iff _ hu _ _ hf (reachable_good net hs im hi hm) kf (reachable_places net hs hu im hi ki hm)]
    intro p _
    have := (C02_eq _ _ (reachable_good net hs im hi hm).2 hf.2).1 he p
    rw [this]
    have h0 : dotc (effect net.toNet p) net.transitions (fun _ => (0 : Rat)) = 0 := by
      unfold dotc
      have : (net.transitions.map fun t => ((effect net.toNet p t : Int) : Rat) * (0 : Rat)) = net.transitions.map fun _ => 0 := by
        apply List.map_congr_left; intros; ring
      rw [this]; simp
    rw [h0]; ring
end
end Align

section
variable {P T A : Type} [DecidableEq P] [DecidableEq T] [DecidableEq A]

/-- C38: the run found by the A* search is a complete run of the net, its cost is the sum of the costs of its
transitions, and no complete run (of cost up to 10^15, `MAX_ALLOWED_HEURISTICS`) is cheaper. -/
theorem C38_optimal (net : LNet P T (Cell A × Cell A)) (hs : net.toNet.Simple) (hu : Incidence.Unit net.toNet)
    (cost : T → Int) (hc : ∀ t, 0 ≤ cost t) (im fm : Marking P) (hi : Good im) (hf : Good fm)
    (ki : ∀ p ∈ keys im, p ∈ net.places) (kf : ∀ p ∈ keys fm, p ∈ net.places) (lp : Marking P → Rat × (T → Rat))
    (hlp : LpOk cost net.transitions (markingEquation net.toNet fm) lp)
    (sch : ASched (Marking P) T) (hsch : sch.Ok) (n : Nat) (x : ATup (Marking P) T)
    (h : astarNet net cost lp im fm sch n = .found x) :
    CompleteRun net.toNet im fm x.alignment ∧ x.g = (x.alignment.map cost).sum ∧
    ∀ ts, CompleteRun net.toNet im fm ts → (ts.map cost).sum ≤ 10 ^ 15 → x.g ≤ (ts.map cost).sum := by
  have hi' := astar_inv (fin := fm) (search_lawful net hs im hi) (markingEq_net net hs hu im fm hi hf ki kf) hlp hc sch hsch n
  rw [astarNet] at h
  rw [h] at hi'
  obtain ⟨h1, h2, he, hopt⟩ := hi'
  refine ⟨(completeRun_path net hs im fm hi hf _).2 ⟨_, h1, he⟩, h2, fun ts hts hle => ?_⟩
  obtain ⟨m, hp, hm⟩ := (completeRun_path net hs im fm hi hf _).1 hts
  refine hopt ts m hp hm ?_
  have : (totalCost cost ts : Rat) ≤ ((10 ^ 15 : Int) : Rat) := by exact_mod_cast hle
  unfold maxAllowed
  norm_num at this
  exact this

/-- C38: if the search ends without a result (`None`, or an `IndexError`), there is no complete run of cost up to 10^15. -/
theorem C38_none (net : LNet P T (Cell A × Cell A)) (hs : net.toNet.Simple) (hu : Incidence.Unit net.toNet)
    (cost : T → Int) (hc : ∀ t, 0 ≤ cost t) (im fm : Marking P) (hi : Good im) (hf : Good fm)
    (ki : ∀ p ∈ keys im, p ∈ net.places) (kf : ∀ p ∈ keys fm, p ∈ net.places) (lp : Marking P → Rat × (T → Rat))
    (hlp : LpOk cost net.transitions (markingEquation net.toNet fm) lp)
    (sch : ASched (Marking P) T) (hsch : sch.Ok) (n : Nat)
    (h : astarNet net cost lp im fm sch n = .exhausted ∨ astarNet net cost lp im fm sch n = .indexError) :
    ∀ ts, CompleteRun net.toNet im fm ts → 10 ^ 15 < (ts.map cost).sum := by
  have hi' := astar_inv (fin := fm) (search_lawful net hs im hi) (markingEq_net net hs hu im fm hi hf ki kf) hlp hc sch hsch n
  have hi'' : ∀ ts m, Path (searchSem net) im ts m → (searchSem net).eqv m fm = true → maxAllowed < (totalCost cost ts : Rat) := by
    rcases h with h | h <;> (rw [astarNet] at h; rw [h] at hi'; exact hi')
  intro ts hts
  obtain ⟨m, hp, hm⟩ := (completeRun_path net hs im fm hi hf _).1 hts
  have := hi'' ts m hp hm
  unfold maxAllowed totalCost at this
  have h2 : (((10 ^ 15 : Int) : Rat)) < ((ts.map cost).sum : Int) := by norm_num; exact this
  exact_mod_cast h2

/-- C38: the search ends on every net with finitely many reachable markings. -/
theorem C38_terminates (net : LNet P T (Cell A × Cell A)) (hs : net.toNet.Simple) (hu : Incidence.Unit net.toNet)
    (cost : T → Int) (hc : ∀ t, 0 ≤ cost t) (im fm : Marking P) (hi : Good im) (hf : Good fm)
    (ki : ∀ p ∈ keys im, p ∈ net.places) (kf : ∀ p ∈ keys fm, p ∈ net.places) (lp : Marking P → Rat × (T → Rat))
    (hlp : LpOk cost net.transitions (markingEquation net.toNet fm) lp)
    (sch : ASched (Marking P) T) (hsch : sch.Ok) (L : List (Marking P))
    (hL : ∀ (ts : List T) m, ts.foldlM (fun m t => net.toNet.execute t m) im = some m → ∃ x ∈ L, SameTokens x m)
    (hLg : ∀ x ∈ L, Pos x) :
    ∃ n, (∃ x, astarNet net cost lp im fm sch n = .found x) ∨ astarNet net cost lp im fm sch n = .exhausted ∨
      astarNet net cost lp im fm sch n = .indexError := by
  obtain ⟨n, h⟩ := aterminates_finite (fin := fm) (search_lawful net hs im hi) (markingEq_net net hs hu im fm hi hf ki kf) hlp hc
    sch hsch L (by
      intro m hm
      exact reachable_listed net hs im hi L hL hLg hm) net.transitions.length
    (fun m hm => enabled_length _ hs hu.trans_nodup m (reachable_good _ hs _ hi hm).2)
  refine ⟨n, ?_⟩
  unfold astarNet
  cases hst : astar (searchSem net) cost net.transitions lp im fm sch n with
  | running o c u => rw [hst] at h; exact h.elim
  | found x => exact .inl ⟨x, rfl⟩
  | exhausted => exact .inr (.inl rfl)
  | indexError => exact .inr (.inr rfl)

/-- the synchronous product with a trace net has unit weights and proper arcs -/
theorem unit_product (tr : List A) (net : LNet P T A) (hu : Incidence.Unit net.toNet) :
    Incidence.Unit (product (traceNet tr) net).toNet where
  places_nodup := by
    simp only [product, traceNet]
    rw [List.nodup_append]
    refine ⟨List.nodup_range.map _ (by simp), hu.places_nodup.map _ (by simp), ?_⟩
    intro a ha b hb
    obtain ⟨_, _, rfl⟩ := List.mem_map.1 ha
    obtain ⟨_, _, rfl⟩ := List.mem_map.1 hb
    simp
  trans_nodup := product_nodup _ _ (by simp [traceNet, List.nodup_range]) hu.trans_nodup
  inOne := by
    intro mv hmv a ha
    have hm := (mem_product_iff _ _ mv).1 hmv
    have key1 : ∀ i ∈ mv.fst?, ∀ a ∈ copyArcs (Q' := Nat ⊕ P) Sum.inl ((traceNet tr).inArcs i),
        a.2 = 1 ∧ a.1 ∈ (product (traceNet tr) net).places := by
      intro i hi a ha
      have := hm.2.1 i hi
      simp only [traceNet, List.mem_range] at this
      simp only [traceNet, copyArcs, List.map_cons, List.map_nil, List.mem_singleton] at ha
      subst ha
      simp [product, traceNet]; omega
    have key2 : ∀ t ∈ mv.snd?, ∀ a ∈ copyArcs (Q' := Nat ⊕ P) Sum.inr (net.inArcs t),
        a.2 = 1 ∧ a.1 ∈ (product (traceNet tr) net).places := by
      intro t ht a ha
      obtain ⟨b, hb, rfl⟩ := List.mem_map.1 ha
      have := (hu.inOne t (hm.2.2 t ht) b hb).2
      simp [product, this]
    cases mv with
    | left i => exact key1 i rfl a ha
    | right t => exact key2 t rfl a ha
    | sync i t =>
      rcases List.mem_append.1 (show a ∈ copyArcs Sum.inl _ ++ copyArcs Sum.inr _ from ha) with h | h
      · exact key1 i rfl a h
      · exact key2 t rfl a h
  outOne := by
    intro mv hmv a ha
    have hm := (mem_product_iff _ _ mv).1 hmv
    have key1 : ∀ i ∈ mv.fst?, ∀ a ∈ copyArcs (Q' := Nat ⊕ P) Sum.inl ((traceNet tr).outArcs i),
        a.2 = 1 ∧ a.1 ∈ (product (traceNet tr) net).places := by
      intro i hi a ha
      have := hm.2.1 i hi
      simp only [traceNet, List.mem_range] at this
      simp only [traceNet, copyArcs, List.map_cons, List.map_nil, List.mem_singleton] at ha
      subst ha
      simp [product, traceNet]; omega
    have key2 : ∀ t ∈ mv.snd?, ∀ a ∈ copyArcs (Q' := Nat ⊕ P) Sum.inr (net.outArcs t),
        a.2 = 1 ∧ a.1 ∈ (product (traceNet tr) net).places := by
      intro t ht a ha
      obtain ⟨b, hb, rfl⟩ := List.mem_map.1 ha
      have := (hu.outOne t (hm.2.2 t ht) b hb).2
      simp [product, this]
    cases mv with
    | left i => exact key1 i rfl a ha
    | right t => exact key2 t rfl a ha
    | sync i t =>
      rcases List.mem_append.1 (show a ∈ copyArcs Sum.inl _ ++ copyArcs Sum.inr _ from ha) with h | h
      · exact key1 i rfl a h
      · exact key2 t rfl a h

theorem keys_product (tr : List A) (net : LNet P T A) (i : Nat) (hi : i ≤ tr.length) (m : Marking P) (hm : Good m)
    (k : ∀ p ∈ keys m, p ∈ net.places) : ∀ p ∈ keys (productMarking [(i, 1)] m), p ∈ (product (traceNet tr) net).places := by
  intro p hp
  rw [mem_keys_iff, get?_productMarking [(i, 1)] m (good_single i).1 hm.1] at hp
  cases p with
  | inl j =>
    have : j = i := by
      by_contra hne
      simp [get?, Ne.symm hne] at hp
    simp [product, traceNet, this]; omega
  | inr q =>
    have := k q ((mem_keys_iff _ _).2 hp)
    simp [product, this]

/-- C38: the result for a trace and a net is an alignment, and no alignment (of cost up to 10^15) is cheaper; if there is
none, the net has no complete run (such that an alignment costs at most 10^15). -/
theorem C38_trace_alignment (tr : List A) (net : LNet P T A) (hs : net.toNet.Simple) (hu : Incidence.Unit net.toNet)
    (im fm : Marking P) (hi : Good im) (hf : Good fm) (ki : ∀ p ∈ keys im, p ∈ net.places)
    (kf : ∀ p ∈ keys fm, p ∈ net.places) (cost : Move Nat T → Int) (hc : ∀ mv, 0 ≤ cost mv)
    (lp : Marking (Nat ⊕ P) → Rat × (Move Nat T → Rat))
    (hlp : LpOk cost (product (traceNet tr) net).transitions
      (markingEquation (product (traceNet tr) net).toNet (productMarking (traceFm tr) fm)) lp)
    (sch : ASched (Marking (Nat ⊕ P)) (Move Nat T)) (hsch : sch.Ok) (n : Nat) :
    (∀ x, astarTrace tr net im fm cost lp sch n = .found x →
      IsAlignment tr net im fm x.alignment ∧ x.g = (x.alignment.map cost).sum ∧
      ∀ s, IsAlignment tr net im fm s → (s.map cost).sum ≤ 10 ^ 15 → x.g ≤ (s.map cost).sum) ∧
    (astarTrace tr net im fm cost lp sch n = .exhausted ∨ astarTrace tr net im fm cost lp sch n = .indexError →
      ∀ s, IsAlignment tr net im fm s → 10 ^ 15 < (s.map cost).sum) := by
  have hsimp := product_simple (traceNet tr) net (traceNet_simple tr) hs
  have hup := unit_product tr net hu
  have huw : UnitWeights net.toNet := fun t ht => ⟨fun a ha => (hu.inOne t ht a ha).1, fun a ha => (hu.outOne t ht a ha).1⟩
  have g1 : Good (productMarking traceIm im) := good_product (good_single 0) hi
  have g2 : Good (productMarking (traceFm tr) fm) := good_product (good_single tr.length) hf
  have k1 := keys_product tr net 0 (Nat.zero_le _) im hi ki
  have k2 := keys_product tr net tr.length (Nat.le_refl _) fm hf kf
  have h5 := C05_runs_are_alignments tr net hs huw im fm hi.1 hf.1 hi.2
  constructor
  · intro x hx
    obtain ⟨h1, h2, h3⟩ := C38_optimal (product (traceNet tr) net) hsimp hup cost hc _ _ g1 g2 k1 k2 lp hlp sch hsch n x hx
    exact ⟨(h5 _).1 h1, h2, fun s hal hle => h3 s ((h5 s).2 hal) hle⟩
  · intro hx s hal
    exact C38_none (product (traceNet tr) net) hsimp hup cost hc _ _ g1 g2 k1 k2 lp hlp sch hsch n hx s ((h5 s).2 hal)

/-- C38: if there is an alignment of cost at most 10^15, the search finds one (even if the net has infinitely many
reachable markings), provided that moves on model cost at least 1, which the default costs satisfy. -/
theorem C38_alignment_found (tr : List A) (net : LNet P T A) (hs : net.toNet.Simple) (hu : Incidence.Unit net.toNet)
    (im fm : Marking P) (hi : Good im) (hf : Good fm) (ki : ∀ p ∈ keys im, p ∈ net.places)
    (kf : ∀ p ∈ keys fm, p ∈ net.places) (cost : Move Nat T → Int) (hc : ∀ mv, 0 ≤ cost mv)
    (hr : ∀ t, 1 ≤ cost (.right t)) (lp : Marking (Nat ⊕ P) → Rat × (Move Nat T → Rat))
    (hlp : LpOk cost (product (traceNet tr) net).transitions
      (markingEquation (product (traceNet tr) net).toNet (productMarking (traceFm tr) fm)) lp)
    (sch : ASched (Marking (Nat ⊕ P)) (Move Nat T)) (hsch : sch.Ok)
    (s : List (Move Nat T)) (hal : IsAlignment tr net im fm s) (hle : (s.map cost).sum ≤ 10 ^ 15) :
    ∃ n x, astarTrace tr net im fm cost lp sch n = .found x := by
  have hsimp := product_simple (traceNet tr) net (traceNet_simple tr) hs
  have hup := unit_product tr net hu
  have huw : UnitWeights net.toNet := fun t ht => ⟨fun a ha => (hu.inOne t ht a ha).1, fun a ha => (hu.outOne t ht a ha).1⟩
  have g1 : Good (productMarking traceIm im) := good_product (good_single 0) hi
  have g2 : Good (productMarking (traceFm tr) fm) := good_product (good_single tr.length) hf
  have k1 := keys_product tr net 0 (Nat.zero_le _) im hi ki
  have k2 := keys_product tr net tr.length (Nat.le_refl _) fm hf kf
  have hrun := (C05_runs_are_alignments tr net hs huw im fm hi.1 hf.1 hi.2 s).2 hal
  obtain ⟨m, hp, hm⟩ := (completeRun_path (product (traceNet tr) net) hsimp _ _ g1 g2 s).1 hrun
  have hmax : (totalCost cost s : Rat) ≤ maxAllowed := by
    have : (totalCost cost s : Rat) ≤ ((10 ^ 15 : Int) : Rat) := by exact_mod_cast hle
    unfold maxAllowed
    norm_num at this
    exact this
  obtain ⟨n, h⟩ := aterminates_bounded (search_lawful (product (traceNet tr) net) hsimp _ g1)
    (markingEq_net _ hsimp hup _ _ g1 g2 k1 k2) hlp hc sch hsch s m hp hm hmax
    (tr.length + (totalCost cost s).toNat) (by
      intro s' m' hp' hle
      have hcr := (path_iff (product (traceNet tr) net) hsimp _ g1 s' (count m')).1 ⟨m', hp', rfl⟩
      rw [crun_product _ _ (traceNet_unit tr) huw _ _ _ (fun p => g1.2.count_nonneg p)] at hcr
      have h1 := hcr.2.1
      have e : (fun p => count (productMarking traceIm im) (Sum.inl p)) = one 0 := by
        rw [← count_traceIm]; funext p
        simp [count, get?_productMarking traceIm im (good_single 0).1 hi.1]
      rw [e, crun_trace] at h1
      have h2 : (s'.filterMap Move.fst?).length ≤ tr.length := by
        rcases h1.2.1 with h | h
        · rw [h]; simp
        · omega
      have h3 := moves_length s' cost hc hr
      unfold totalCost at hle ⊢
      omega)
    (product (traceNet tr) net).transitions.length
    (fun m hm => enabled_length _ hsimp hup.trans_nodup m (reachable_good _ hsimp _ g1 hm).2)
  refine ⟨n, ?_⟩
  have key := (C38_trace_alignment tr net hs hu im fm hi hf ki kf cost hc lp hlp sch hsch n).2
  cases hst : astarTrace tr net im fm cost lp sch n with
  | running o c u => rw [astarTrace, astarNet] at hst; rw [hst] at h; exact h.elim
  | found x => exact ⟨x, rfl⟩
  | exhausted => have := key (.inl hst) s hal; omega
  | indexError => have := key (.inr hst) s hal; omega

/-- C38: A* and Dijkstra's algorithm (C06) report the same cost. -/
theorem C38_agrees (tr : List A) (net : LNet P T A) (hs : net.toNet.Simple) (hu : Incidence.Unit net.toNet)
    (im fm : Marking P) (hi : Good im) (hf : Good fm) (ki : ∀ p ∈ keys im, p ∈ net.places)
    (kf : ∀ p ∈ keys fm, p ∈ net.places) (cost : Move Nat T → Int) (hc : ∀ mv, 0 ≤ cost mv)
    (lp : Marking (Nat ⊕ P) → Rat × (Move Nat T → Rat))
    (hlp : LpOk cost (product (traceNet tr) net).transitions
      (markingEquation (product (traceNet tr) net).toNet (productMarking (traceFm tr) fm)) lp)
    (sch : ASched (Marking (Nat ⊕ P)) (Move Nat T)) (hsch : sch.Ok) (n : Nat) (x : ATup (Marking (Nat ⊕ P)) (Move Nat T))
    (hx : astarTrace tr net im fm cost lp sch n = .found x)
    (sch' : Sched (Marking (Nat ⊕ P)) (Move Nat T)) (hsch' : sch'.Ok) (n' : Nat) (y : Tup (Marking (Nat ⊕ P)) (Move Nat T))
    (hy : alignTrace tr net im fm cost sch' n' = .found y) (hle : y.g ≤ 10 ^ 15) : x.g = y.g := by
  have huw : UnitWeights net.toNet := fun t ht => ⟨fun a ha => (hu.inOne t ht a ha).1, fun a ha => (hu.outOne t ht a ha).1⟩
  obtain ⟨h1, h2, h3⟩ := (C38_trace_alignment tr net hs hu im fm hi hf ki kf cost hc lp hlp sch hsch n).1 x hx
  obtain ⟨h4, h5, h6⟩ := (C06_trace_alignment tr net hs huw im fm hi hf cost hc sch' hsch' n').1 y hy
  have a1 := h3 _ h4 (by omega)
  have a2 := h6 _ h1
  omega

end
end Verif
