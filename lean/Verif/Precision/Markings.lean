import Verif.Precision.Search
import Verif.Precision.Eventually
import Verif.Precision.Formula
/-
C66: the markings that align-ETConformance computes for a prefix, and the activities it counts as enabled.
-/
set_option linter.unusedSectionVars false
namespace Verif
open Dict Reach Align
namespace Precision
variable {P T A : Type} [DecidableEq P] [DecidableEq T] [DecidableEq A]

/-! ### Model -/

/-- `enabled_trans` (utils.py:76-80): transitions attached to a marked place (transitions without input arcs are never
looked at) -/
def attachedTrans (net : Net P T) (m : Marking P) : List T :=
  (Dict.keys m).foldl
    (fun s p => (assTrans net p).foldl (fun s t => if Marking.le (subMarking net t) m then setAdd s t else s) s) []

/-- the condition on `t` in `trans_to_visit_with_cost` (utils.py:82-84) -/
def visits (l : Cell A × Cell A) : Bool := !(isLogMove l || (isModelMove l && decide (l.2 ≠ .lab none)))

/-- enabled transitions, successors (utils.py:87-88) and equality of markings for `__search` -/
def precSem (net : LNet P T (Cell A × Cell A)) : Sem (Marking P) T where
  enabled m := (attachedTrans net.toNet m).filter fun t =>
    match net.label t with
    | some l => visits l
    | none => false
  exec t m := addMarkings m (addMarking net.toNet t)
  eqv := Marking.eq

/-- `cost_function` (align_etconformance.py:303) -/
def syncCost (net : LNet P T (Cell A × Cell A)) (t : T) : Int := ((net.label t).map standardCost).getD 0

/-- `stop_marking` (align_etconformance.py:299-302): the part of the final marking on the places of the trace net -/
def stopMarking (fm : Marking (Nat ⊕ P)) : Marking (Nat ⊕ P) :=
  fm.foldl (fun m e => match e.1 with | .inl _ => Dict.set m e.1 e.2 | .inr _ => m) []

/-- `__align_trace_stop_marking` (align_etconformance.py:296-309) after `n` iterations of the search -/
def alignStop (tr : List A) (net : LNet P T A) (im fm : Marking P) (sch : Sched (Marking (Nat ⊕ P)) (Move Nat T)) (n : Nat) :
    PSt (Marking (Nat ⊕ P)) (Move Nat T) :=
  let sync := product (traceNet tr) net
  let stop := stopMarking (productMarking (traceFm tr) fm)
  pSearch (precSem sync) (syncCost sync) (fun m => Marking.le stop m) (productMarking traceIm im) sch n

/-- `transform_markings_from_sync_to_original_net` (align_etconformance.py:138-186) for one marking: the entries of the
model places (places are found by name there; here names are taken to be distinct) -/
def toOriginal (m : Marking (Nat ⊕ P)) : Marking P :=
  m.foldl (fun acc e => match e.1 with | .inr p => Dict.set acc p e.2 | .inl _ => acc) []

/-- `activated_transitions_labels` (align_etconformance.py:97-103); `k` is the number of iterations of the search for
eventually enabled transitions -/
def activatedLabels (net : LNet P T A) (ord : List T → List T) (k : Nat) (ms : List (Marking P)) : List A :=
  dedup (ms.flatMap fun m => (eeRun net ord m k).visible.filterMap net.label)

/-! ### Specification -/

/-- the firing sequence `ts` from `im` leads to `m` and its visible labels are `tr` -/
def Replays (net : LNet P T A) (im : Marking P) (tr : List A) (ts : List T) (m : Marking P) : Prop :=
  ts.foldlM (fun m t => net.toNet.execute t m) im = some m ∧ ts.filterMap net.label = tr

/-- number of silent transitions in a firing sequence -/
def silents (net : LNet P T A) (ts : List T) : Nat := ts.countP fun t => (net.label t).isNone

/-- `m` is reached by replaying `tr` with as few silent transitions as possible -/
def ShortestReplay (net : LNet P T A) (im : Marking P) (tr : List A) (m : Marking P) : Prop :=
  ∃ ts, Replays net im tr ts m ∧ ∀ ts' m', Replays net im tr ts' m' → silents net ts ≤ silents net ts'

/-! ### Enabled transitions -/

theorem mem_attached (net : Net P T) (hs : net.Simple) (m : Marking P) (hm : Pos m) (t : T) :
    t ∈ attachedTrans net m ↔ net.isEnabled t m = true ∧ net.inArcs t ≠ [] := by
  unfold attachedTrans
  rw [mem_enabledTrans_aux]
  constructor
  · rintro (h | ⟨p, _, h1, h2⟩)
    · cases h
    · refine ⟨(le_subMarking_iff net hs t (List.mem_filter.1 h1).1 m hm).1 h2, ?_⟩
      intro e
      have := (List.mem_filter.1 h1).2
      simp [subMarking, e, keys] at this
  · rintro ⟨h, hne⟩
    have ht := ((Net.isEnabled_iff _ _ _).1 h).1
    have hle := (le_subMarking_iff net hs t ht m hm).2 h
    cases hin : net.inArcs t with
    | nil => exact absurd hin hne
    | cons a as =>
      right
      have hp : a.1 ∈ keys (subMarking net t) := by
        rw [mem_keys_iff, subMarking_get? net t (hs.noParallel t ht), ← mem_keys_iff, hin]; simp [keys]
      exact ⟨a.1, ((Marking.le_iff _ _).1 hle _ hp).1, List.mem_filter.2 ⟨ht, by simpa using hp⟩, hle⟩

/-- moves that the search takes: synchronous moves and silent moves on the model -/
def Taken (net : LNet P T A) : Move Nat T → Prop
  | .left _ => False
  | .right t => net.label t = none
  | .sync _ _ => True

theorem mem_prec (tr : List A) (net : LNet P T A) (hs : net.toNet.Simple) (hin : ∀ t ∈ net.transitions, net.label t = none → net.inArcs t ≠ [])
    (m : Marking (Nat ⊕ P)) (hm : Pos m) (mv : Move Nat T) :
    mv ∈ (precSem (product (traceNet tr) net)).enabled m ↔
      (product (traceNet tr) net).toNet.isEnabled mv m = true ∧ Taken net mv := by
  have hsimp := product_simple (traceNet tr) net (traceNet_simple tr) hs
  simp only [precSem, List.mem_filter]
  rw [mem_attached _ hsimp m hm]
  constructor
  · rintro ⟨⟨h1, h2⟩, h3⟩
    refine ⟨h1, ?_⟩
    cases mv with
    | left i => simp [product, visits, isLogMove] at h3
    | right t => simpa [product, visits, isLogMove, isModelMove, Taken] using h3
    | sync i t => trivial
  · rintro ⟨h1, h2⟩
    have hmem := (mem_product_iff _ _ mv).1 ((Net.isEnabled_iff _ _ _).1 h1).1
    cases mv with
    | left i => exact h2.elim
    | right t =>
      simp only [Taken] at h2
      refine ⟨⟨h1, ?_⟩, by simp [product, visits, isLogMove, isModelMove, h2]⟩
      have := hin t (hmem.2.2 t rfl) h2
      simpa [product, copyArcs] using this
    | sync i t =>
      refine ⟨⟨h1, by simp [product, copyArcs, traceNet]⟩, by simp [product, visits, isLogMove, isModelMove]⟩

section
variable (tr : List A) (net : LNet P T A) (hs : net.toNet.Simple)
  (hin : ∀ t ∈ net.transitions, net.label t = none → net.inArcs t ≠ []) (im : Marking P) (hi : Good im)
include hs hin hi

theorem prec_good {m : Marking (Nat ⊕ P)} (h : Reachable (precSem (product (traceNet tr) net)) (productMarking traceIm im) m) :
    Good m := by
  have hsimp := product_simple (traceNet tr) net (traceNet_simple tr) hs
  induction h with
  | refl => exact good_product (good_single 0) hi
  | step _ hst ih =>
    obtain ⟨h1, rfl⟩ := hst
    exact (exec_spec _ hsimp _ _ ih ((mem_prec tr net hs hin _ ih.2 _).1 h1).1).1

theorem prec_lawful : Lawful (precSem (product (traceNet tr) net)) (productMarking traceIm im) := by
  have hsimp := product_simple (traceNet tr) net (traceNet_simple tr) hs
  constructor
  · exact fun a => C02_eq_equivalence.refl a
  · exact fun _ _ h => C02_eq_equivalence.symm h
  · exact fun _ _ _ h1 h2 => C02_eq_equivalence.trans h1 h2
  · intro a b ha hb h t ht
    have hc : ∀ p, count a p = count b p := fun p => Marking.count_eq_of_get? ((Marking.eq_iff a b).1 h p)
    rw [mem_prec tr net hs hin _ (prec_good tr net hs hin im hi ha).2, Net.isEnabled_iff] at ht
    rw [mem_prec tr net hs hin _ (prec_good tr net hs hin im hi hb).2, Net.isEnabled_iff]
    exact ⟨⟨ht.1.1, fun x hx => by rw [← hc]; exact ht.1.2 x hx⟩, ht.2⟩
  · intro a b ha hb h t ht
    have hc : ∀ p, count a p = count b p := fun p => Marking.count_eq_of_get? ((Marking.eq_iff a b).1 h p)
    have ga := prec_good tr net hs hin im hi ha
    have gb := prec_good tr net hs hin im hi hb
    have h1 := ((mem_prec tr net hs hin _ ga.2 t).1 ht).1
    have h2 : (product (traceNet tr) net).toNet.isEnabled t b = true := by
      rw [Net.isEnabled_iff] at h1 ⊢
      exact ⟨h1.1, fun x hx => by rw [← hc]; exact h1.2 x hx⟩
    have e1 := exec_spec _ hsimp t a ga h1
    have e2 := exec_spec _ hsimp t b gb h2
    refine (C02_eq _ _ e1.1.2 e2.1.2).2 fun p => ?_
    show count (addMarkings a _) p = count (addMarkings b _) p
    rw [e1.2, e2.2, hc]

theorem prec_path_iff (s : List (Move Nat T)) (g : Nat ⊕ P → Int) :
    (∃ m, Path (precSem (product (traceNet tr) net)) (productMarking traceIm im) s m ∧ count m = g) ↔
      CRun (product (traceNet tr) net).toNet (count (productMarking traceIm im)) s g ∧ ∀ mv ∈ s, Taken net mv := by
  have hsimp := product_simple (traceNet tr) net (traceNet_simple tr) hs
  constructor
  · rintro ⟨m, hp, rfl⟩
    induction hp with
    | nil => exact ⟨rfl, by simp⟩
    | @snoc ts m t hp ht ih =>
      have gm := prec_good tr net hs hin im hi hp.reachable
      obtain ⟨he, htk⟩ := (mem_prec tr net hs hin _ gm.2 t).1 ht
      have hen := (Net.isEnabled_iff_enabled _ hsimp t m gm.2).1 he
      constructor
      · rw [crun_snoc]
        exact ⟨count m, ih.1, hen.1, hen.2, funext (exec_spec _ hsimp t m gm he).2⟩
      · intro mv hmv
        rcases List.mem_append.1 hmv with hmv | hmv
        · exact ih.2 mv hmv
        · rw [List.mem_singleton.1 hmv]; exact htk
  · rintro ⟨h, htk⟩
    induction s using snocInduct generalizing g with
    | nil => exact ⟨_, .nil, h⟩
    | snoc ts t ih =>
      rw [crun_snoc] at h
      obtain ⟨f', h1, h2, h3, h4⟩ := h
      obtain ⟨m, hp, hm⟩ := ih f' h1 (fun mv hmv => htk mv (List.mem_append_left _ hmv))
      have gm := prec_good tr net hs hin im hi hp.reachable
      have he := (Net.isEnabled_iff_enabled _ hsimp t m gm.2).2 ⟨h2, fun p => by rw [hm]; exact h3 p⟩
      refine ⟨_, .snoc hp ((mem_prec tr net hs hin _ gm.2 t).2 ⟨he, htk t (by simp)⟩), ?_⟩
      rw [h4, ← hm]
      exact funext (exec_spec _ hsimp t m gm he).2
end

/-! ### Moves and firing sequences -/

/-- the moves of a firing sequence: event `i` and following for the visible transitions -/
def movesOf (net : LNet P T A) : Nat → List T → List (Move Nat T)
  | _, [] => []
  | i, t :: ts => match net.label t with
    | some _ => .sync i t :: movesOf net (i + 1) ts
    | none => .right t :: movesOf net i ts

theorem movesOf_snd (net : LNet P T A) (i : Nat) (ts : List T) : (movesOf net i ts).filterMap Move.snd? = ts := by
  induction ts generalizing i with
  | nil => rfl
  | cons t ts ih => rw [movesOf]; split <;> simp [Move.snd?, ih]

theorem movesOf_fst (net : LNet P T A) (i : Nat) (ts : List T) :
    (movesOf net i ts).filterMap Move.fst? = List.range' i (ts.filterMap net.label).length := by
  induction ts generalizing i with
  | nil => rfl
  | cons t ts ih =>
    rw [movesOf]; split <;> rename_i h
    · simp [Move.fst?, ih, h, List.range'_succ]
    · rw [filterMap_cons_toList, ih]; simp [Move.fst?, h]

theorem movesOf_taken (net : LNet P T A) (i : Nat) (ts : List T) : ∀ mv ∈ movesOf net i ts, Taken net mv := by
  induction ts generalizing i with
  | nil => simp [movesOf]
  | cons t ts ih =>
    rw [movesOf]; split <;> rename_i h <;> intro mv hmv <;> rcases List.mem_cons.1 hmv with rfl | hmv
    · trivial
    · exact ih _ mv hmv
    · exact h
    · exact ih _ mv hmv

theorem movesOf_agree (tr : List A) (net : LNet P T A) (i : Nat) (ts : List T) (h : tr.drop i = ts.filterMap net.label) :
    ∀ mv ∈ movesOf net i ts, mv.Agree (traceNet tr) net := by
  induction ts generalizing i with
  | nil => simp [movesOf]
  | cons t ts ih =>
    rw [movesOf]; split <;> rename_i hl <;> intro mv hmv <;> rcases List.mem_cons.1 hmv with rfl | hmv
    · rename_i a
      rw [List.filterMap_cons, hl] at h
      simp only [Move.Agree, traceNet]
      have := congrArg (fun l => l[0]?) h
      simp only [List.getElem?_drop, Nat.add_zero, List.getElem?_cons_zero] at this
      rw [this, hl]
    · rename_i a
      rw [List.filterMap_cons, hl] at h
      have h' : tr.drop (i + 1) = ts.filterMap net.label := by
        rw [← List.drop_drop, h]; rfl
      exact ih _ h' mv hmv
    · trivial
    · rw [List.filterMap_cons, hl] at h; exact ih _ h mv hmv

theorem movesOf_cost (tr : List A) (net : LNet P T A) (i : Nat) (ts : List T) :
    totalCost (syncCost (product (traceNet tr) net)) (movesOf net i ts) = (silents net ts : Int) := by
  induction ts generalizing i with
  | nil => rfl
  | cons t ts ih =>
    rw [movesOf]
    split <;> rename_i h
    · have := ih (i + 1)
      simp only [totalCost, silents, List.map_cons, List.sum_cons, List.countP_cons] at this ⊢
      rw [this]; simp [syncCost, product, standardCost, h]
    · have := ih i
      simp only [totalCost, silents, List.map_cons, List.sum_cons, List.countP_cons] at this ⊢
      rw [this]; simp [syncCost, product, standardCost, h]; omega

/-- moves that the search takes, in trace order, are the moves of their firing sequence -/
theorem eq_movesOf (tr : List A) (net : LNet P T A) (i : Nat) (s : List (Move Nat T)) (ht : ∀ mv ∈ s, Taken net mv)
    (ha : ∀ mv ∈ s, mv.Agree (traceNet tr) net) (hr : s.filterMap Move.fst? = List.range' i (s.filterMap Move.fst?).length)
    (hlen : ∀ j ∈ s.filterMap Move.fst?, j < tr.length) :
    s = movesOf net i (s.filterMap Move.snd?) ∧
      (s.filterMap Move.snd?).filterMap net.label = (tr.drop i).take (s.filterMap Move.fst?).length := by
  induction s generalizing i with
  | nil => simp [movesOf]
  | cons mv s ih =>
    have ht' : ∀ mv ∈ s, Taken net mv := fun mv h => ht mv (List.mem_cons_of_mem _ h)
    have ha' : ∀ mv ∈ s, mv.Agree (traceNet tr) net := fun mv h => ha mv (List.mem_cons_of_mem _ h)
    cases mv with
    | left j => exact (ht _ List.mem_cons_self).elim
    | right t =>
      have hl : net.label t = none := ht _ List.mem_cons_self
      simp only [List.filterMap_cons, Move.fst?, Move.snd?] at hr hlen ⊢
      obtain ⟨h1, h2⟩ := ih i ht' ha' hr hlen
      rw [movesOf, hl]
      exact ⟨by rw [← h1], h2⟩
    | sync j t =>
      simp only [List.filterMap_cons, Move.fst?, Move.snd?, List.length_cons, List.range'_succ, List.cons.injEq] at hr hlen ⊢
      obtain ⟨rfl, hr⟩ := hr
      obtain ⟨h1, h2⟩ := ih (j + 1) ht' ha' hr (fun x hx => hlen x (List.mem_cons_of_mem _ hx))
      have hj : j < tr.length := hlen j List.mem_cons_self
      have hag := ha _ List.mem_cons_self
      simp only [Move.Agree, traceNet] at hag
      rw [List.getElem?_eq_getElem hj] at hag
      constructor
      · rw [movesOf, ← hag]
        simp only
        rw [← h1]
      · rw [← hag]
        simp only
        rw [h2, List.drop_eq_getElem_cons hj, List.take_succ_cons]

theorem count_stop (tr : List A) (fm : Marking P) (hf : Good fm) :
    stopMarking (productMarking (traceFm tr) fm) = [(.inl tr.length, 1)] := by
  unfold stopMarking productMarking traceFm
  have h : ∀ (l : Marking P) (acc : Marking (Nat ⊕ P)), (keys acc).Nodup → (∀ e ∈ l, Sum.inr e.1 ∉ keys acc) → (keys l).Nodup →
      l.foldl (fun m e => Dict.set m (.inr e.1) e.2) acc = acc ++ l.map fun e => (.inr e.1, e.2) := by
    have hset : ∀ (acc : Marking (Nat ⊕ P)) k v, k ∉ keys acc → Dict.set acc k v = acc ++ [(k, v)] := by
      intro acc k v hk
      induction acc with
      | nil => rfl
      | cons e acc ih =>
        obtain ⟨k', v'⟩ := e
        simp only [keys, List.map_cons, List.mem_cons, not_or] at hk
        rw [Dict.set, if_neg (fun e => hk.1 e.symm), ih hk.2]; rfl
    intro l
    induction l with
    | nil => intro acc _ _ _; simp
    | cons e l ih =>
      intro acc h1 h2 h3
      simp only [keys, List.map_cons, List.nodup_cons] at h3
      rw [List.foldl_cons, hset _ _ _ (h2 e List.mem_cons_self), ih]
      · simp
      · rw [← hset _ _ _ (h2 e List.mem_cons_self)]; exact nodup_set h1 _ _
      · intro e' he'
        simp only [keys, List.map_append, List.map_cons, List.map_nil, List.mem_append, List.mem_singleton, not_or]
        refine ⟨h2 e' (List.mem_cons_of_mem _ he'), ?_⟩
        intro e2; simp at e2
        exact h3.1 (List.mem_map.2 ⟨e', he', e2⟩)
      · exact h3.2
  simp only [List.foldl_cons, List.foldl_nil, Dict.set]
  rw [h _ _ (by simp [keys]) (by simp [keys]) hf.1, List.foldl_append]
  simp only [List.foldl_cons, List.foldl_nil, Dict.set, List.foldl_map]
  have : ∀ (l : Marking P) (acc : Marking (Nat ⊕ P)), l.foldl (fun m _ => m) acc = acc := by
    intro l; induction l with
    | nil => intro acc; rfl
    | cons e l ih => intro acc; exact ih acc
  exact this _ _

theorem le_stop (n : Nat) (m : Marking (Nat ⊕ P)) (hm : Pos m) :
    Marking.le [(Sum.inl n, 1)] m = true ↔ 1 ≤ count m (.inl n) := by
  rw [Marking.le_iff]
  constructor
  · intro h
    have := (h (.inl n) (by simp [keys])).2
    simpa [count, get?] using this
  · intro h p hp
    simp only [keys, List.map_cons, List.map_nil, List.mem_singleton] at hp
    subst hp
    constructor
    · rw [mem_keys_iff, hm.get?_eq]
      have : count m (.inl n) ≠ 0 := by omega
      simp [this]
    · simpa [count, get?] using h

theorem get?_toOriginal (m : Marking (Nat ⊕ P)) (h : (keys m).Nodup) (p : P) : get? (toOriginal m) p = get? m (.inr p) := by
  unfold toOriginal
  have key : ∀ (l : Marking (Nat ⊕ P)) (acc : Marking P), (keys l).Nodup →
      get? (l.foldl (fun acc e => match e.1 with | .inr p => Dict.set acc p e.2 | .inl _ => acc) acc) p =
        (get? l (.inr p)).or (get? acc p) := by
    intro l
    induction l with
    | nil => intro acc _; simp [get?]
    | cons e l ih =>
      intro acc hn
      obtain ⟨k, v⟩ := e
      simp only [keys, List.map_cons, List.nodup_cons] at hn
      rw [List.foldl_cons, ih _ hn.2, get?_cons]
      cases k with
      | inl q => simp
      | inr q =>
        simp only [get?_set, Sum.inr.injEq]
        by_cases hq : q = p
        · subst hq
          have : get? l (Sum.inr q : Nat ⊕ P) = none := by
            have := hn.1
            rw [← keys, mem_keys_iff] at this
            simpa using this
          simp [this]
        · simp [hq]
  rw [key m [] h]; simp [get?]

theorem count_toOriginal (m : Marking (Nat ⊕ P)) (h : (keys m).Nodup) (p : P) : count (toOriginal m) p = count m (.inr p) := by
  unfold count; rw [get?_toOriginal m h]

theorem toOriginal_good (m : Marking (Nat ⊕ P)) (h : Good m) : Good (toOriginal m) := by
  constructor
  · unfold toOriginal
    have : ∀ (l : Marking (Nat ⊕ P)) (acc : Marking P), (keys acc).Nodup →
        (keys (l.foldl (fun acc e => match e.1 with | .inr p => Dict.set acc p e.2 | .inl _ => acc) acc)).Nodup := by
      intro l; induction l with
      | nil => intro acc h; exact h
      | cons e l ih =>
        intro acc h
        rw [List.foldl_cons]
        apply ih
        obtain ⟨k, v⟩ := e
        cases k with
        | inl q => exact h
        | inr q => exact nodup_set h _ _
    exact this m [] (by simp [keys])
  · intro k v hk
    rw [get?_toOriginal m h.1] at hk
    exact h.2 _ v hk

theorem count_product_inl (m1 : Marking Nat) (m2 : Marking P) (h1 : (keys m1).Nodup) (h2 : (keys m2).Nodup) :
    (fun p => count (productMarking m1 m2) (.inl p)) = count m1 := by
  funext p; unfold count; rw [get?_productMarking _ _ h1 h2]
theorem count_product_inr (m1 : Marking Nat) (m2 : Marking P) (h1 : (keys m1).Nodup) (h2 : (keys m2).Nodup) :
    (fun p => count (productMarking m1 m2) (.inr p)) = count m2 := by
  funext p; unfold count; rw [get?_productMarking _ _ h1 h2]

/-- paths of the search to a stop marking are the replays of the trace -/
theorem path_replay (tr : List A) (net : LNet P T A) (hs : net.toNet.Simple) (hu : UnitWeights net.toNet)
    (hin : ∀ t ∈ net.transitions, net.label t = none → net.inArcs t ≠ []) (im : Marking P) (hi : Good im) :
    (∀ s x, Path (precSem (product (traceNet tr) net)) (productMarking traceIm im) s x → 1 ≤ count x (.inl tr.length) →
      ∃ ts m, Replays net im tr ts m ∧ SameTokens (toOriginal x) m ∧
        totalCost (syncCost (product (traceNet tr) net)) s = (silents net ts : Int)) ∧
    (∀ ts m, Replays net im tr ts m →
      ∃ s x, Path (precSem (product (traceNet tr) net)) (productMarking traceIm im) s x ∧ 1 ≤ count x (.inl tr.length) ∧
        SameTokens (toOriginal x) m ∧ totalCost (syncCost (product (traceNet tr) net)) s = (silents net ts : Int)) := by
  have gi : Good (productMarking traceIm im : Marking (Nat ⊕ P)) := good_product (good_single 0) hi
  have hnn : ∀ p, 0 ≤ count (productMarking traceIm im : Marking (Nat ⊕ P)) p := fun p => gi.2.count_nonneg p
  have hk1 : (keys traceIm).Nodup := by simp [traceIm, keys]
  constructor
  · intro s x hp hx
    have gx := prec_good tr net hs hin im hi hp.reachable
    obtain ⟨hrun, htk⟩ := (prec_path_iff tr net hs hin im hi s (count x)).1 ⟨x, hp, rfl⟩
    rw [crun_product _ _ (traceNet_unit tr) hu _ _ _ hnn, count_product_inl _ _ hk1 hi.1, count_product_inr _ _ hk1 hi.1,
      count_traceIm, crun_trace] at hrun
    obtain ⟨ha, ⟨hr, hlen, hg⟩, hrun2⟩ := hrun
    have hk : (s.filterMap Move.fst?).length = tr.length := by
      have := congrFun hg tr.length
      simp only [one, Nat.zero_add] at this
      split at this
      · assumption
      · omega
    have hlt : ∀ j ∈ s.filterMap Move.fst?, j < tr.length := by
      intro j hj; rw [hr, List.mem_range'_1] at hj; omega
    obtain ⟨h1, h2⟩ := eq_movesOf tr net 0 s htk ha hr hlt
    rw [hk] at h2
    obtain ⟨m, h3, h4⟩ := crun_to_run net.toNet hs _ im _ hi.2 hrun2
    refine ⟨s.filterMap Move.snd?, m, ⟨h3, by simpa using h2⟩, ?_, ?_⟩
    · intro p
      rw [h4]; exact count_toOriginal x gx.1 p
    · rw [h1, movesOf_cost, movesOf_snd]
  · rintro ts m ⟨hrun, hlab⟩
    have hc := run_to_crun net.toNet hs ts im m hi.2 hrun
    let s := movesOf net 0 ts
    let g : Nat ⊕ P → Int := fun p => match p with | .inl i => one tr.length i | .inr p => count m p
    have hcr : CRun (product (traceNet tr) net).toNet (count (productMarking traceIm im)) s g := by
      rw [crun_product _ _ (traceNet_unit tr) hu _ _ _ hnn, count_product_inl _ _ hk1 hi.1, count_product_inr _ _ hk1 hi.1,
        count_traceIm, crun_trace]
      have hl : (s.filterMap Move.fst?).length = tr.length := by simp only [s]; rw [movesOf_fst, hlab]; simp
      refine ⟨movesOf_agree tr net 0 ts (by simp [hlab]), ⟨?_, .inr (by omega), ?_⟩, ?_⟩
      · rw [hl]; simp only [s]; rw [movesOf_fst, hlab]
      · rw [hl]; simp [g]
      · simp only [s]; rw [movesOf_snd]; exact hc
    obtain ⟨x, hp, hx⟩ := (prec_path_iff tr net hs hin im hi s g).2 ⟨hcr, movesOf_taken net 0 ts⟩
    have gx := prec_good tr net hs hin im hi hp.reachable
    refine ⟨s, x, hp, ?_, ?_, movesOf_cost tr net 0 ts⟩
    · rw [hx]; simp [g, one]
    · intro p
      rw [count_toOriginal x gx.1 p, hx]

/-- C66: when the search for the markings of a prefix `tr` ends, it has found none exactly if `tr` cannot be replayed;
otherwise it returns exactly the markings that are reached by replaying `tr` with as few silent transitions as possible.
(Unit arc weights, every silent transition has an input place.) -/
theorem _root_.Verif.C66_markings (tr : List A) (net : LNet P T A) (hs : net.toNet.Simple) (hu : UnitWeights net.toNet)
    (hin : ∀ t ∈ net.transitions, net.label t = none → net.inArcs t ≠ []) (im fm : Marking P) (hi : Good im) (hf : Good fm)
    (sch : Sched (Marking (Nat ⊕ P)) (Move Nat T)) (hsch : sch.Ok) (n : Nat) (r : Option (List (Marking (Nat ⊕ P))))
    (h : alignStop tr net im fm sch n = .done r) :
    (r = none ↔ ¬ ∃ ts m, Replays net im tr ts m) ∧
    ∀ l, r = some l →
      (∀ x ∈ l, Good (toOriginal x) ∧ ∃ m, ShortestReplay net im tr m ∧ SameTokens (toOriginal x) m) ∧
      (∀ m, ShortestReplay net im tr m → ∃ x ∈ l, SameTokens (toOriginal x) m) := by
  have hstopEq := count_stop tr fm hf
  unfold alignStop at h
  simp only [hstopEq] at h
  have hcost : ∀ mv, 0 ≤ syncCost (product (traceNet tr) net) mv := by
    intro mv; unfold syncCost
    cases (product (traceNet tr) net).label mv with
    | none => simp
    | some l => simp only [Option.map_some, Option.getD_some, standardCost]; split <;> (try split) <;> omega
  have hl := prec_lawful tr net hs hin im hi
  have hgood := fun {m} => @prec_good P T A _ _ _ tr net hs hin im hi m
  obtain ⟨hp1, hp2⟩ := path_replay tr net hs hu hin im hi
  have hinv := psearch_inv (stop := fun m => Marking.le [(Sum.inl tr.length, 1)] m) hl hcost ?_ ?_ sch hsch n
  · rw [h] at hinv
    cases r with
    | none =>
      refine ⟨⟨fun _ => ?_, fun _ => rfl⟩, by simp⟩
      rintro ⟨ts, m, hr⟩
      obtain ⟨s, x, hp, hx, _⟩ := hp2 ts m hr
      have h9 := (le_stop tr.length x (hgood hp.reachable).2).2 hx
      have h10 : Marking.le [(Sum.inl tr.length, 1)] x = false := hinv s x hp
      rw [h9] at h10; cases h10
    | some l =>
      obtain ⟨hne, q, h1, h2⟩ := hinv
      have hex : ∀ x ∈ l, ∃ s ts m, Path (precSem (product (traceNet tr) net)) (productMarking traceIm im) s x ∧
          Replays net im tr ts m ∧ SameTokens (toOriginal x) m ∧ q = (silents net ts : Int) := by
        intro x hx
        obtain ⟨h3, s, h4, h5⟩ := h1 x hx
        obtain ⟨ts, m, h6, h7, h8⟩ := hp1 s x h4 ((le_stop _ x (hgood h4.reachable).2).1 h3)
        exact ⟨s, ts, m, h4, h6, h7, by omega⟩
      have hmin : ∀ ts m, Replays net im tr ts m → q ≤ (silents net ts : Int) ∧
          ((silents net ts : Int) = q → ∃ x ∈ l, SameTokens (toOriginal x) m) := by
        intro ts m hr
        obtain ⟨s, x, hp, hx, hsame, hcs⟩ := hp2 ts m hr
        obtain ⟨h3, h4⟩ := h2 s x hp ((le_stop tr.length x (hgood hp.reachable).2).2 hx)
        rw [hcs] at h3 h4
        refine ⟨h3, fun e => ?_⟩
        obtain ⟨y, hy, hye⟩ := h4 e
        obtain ⟨_, s', hs', _⟩ := h1 y hy
        have gy := hgood hs'.reachable
        have gx := hgood hp.reachable
        have hc := (C02_eq _ _ gy.2 gx.2).1 hye
        exact ⟨y, hy, fun p => by rw [← hsame p, count_toOriginal _ gy.1, count_toOriginal _ gx.1, hc]⟩
      constructor
      · constructor
        · intro e; cases e
        · intro hno
          obtain ⟨x, hx⟩ := List.exists_mem_of_ne_nil l hne
          obtain ⟨_, ts, m, _, hr, _⟩ := hex x hx
          exact absurd ⟨ts, m, hr⟩ hno
      · rintro l' hl'
        simp only [Option.some.injEq] at hl'
        subst hl'
        constructor
        · intro x hx
          obtain ⟨s, ts, m, hp, hr, hsame, hq⟩ := hex x hx
          refine ⟨toOriginal_good x (hgood hp.reachable), m, ⟨ts, hr, fun ts' m' hr' => ?_⟩, hsame⟩
          have := (hmin ts' m' hr').1
          omega
        · rintro m ⟨ts, hr, hshort⟩
          obtain ⟨x, hx⟩ := List.exists_mem_of_ne_nil l hne
          obtain ⟨_, ts', m', _, hr', _, hq⟩ := hex x hx
          have h5 := hshort ts' m' hr'
          have h6 := hmin ts m hr
          exact h6.2 (by omega)
  · intro m hm hstop mv hmv
    have gm := hgood hm
    obtain ⟨hen, htk⟩ := (mem_prec tr net hs hin m gm.2 mv).1 hmv
    have hc1 := (le_stop tr.length m gm.2).1 hstop
    cases mv with
    | left i => exact htk.elim
    | right t =>
      simp only [Taken] at htk
      simp [syncCost, product, standardCost, htk]
    | sync i t =>
      -- the trace net has its only token on the last place
      exfalso
      have hpath : ∃ s, Path (precSem (product (traceNet tr) net)) (productMarking traceIm im) s m := by
        clear hstop hmv hen hc1 gm h
        induction hm with
        | refl => exact ⟨_, .nil⟩
        | step _ hst ih =>
          obtain ⟨s, hp⟩ := ih
          obtain ⟨h1, rfl⟩ := hst
          exact ⟨_, .snoc hp h1⟩
      obtain ⟨s, hp⟩ := hpath
      obtain ⟨hrun, _⟩ := (prec_path_iff tr net hs hin im hi s (count m)).1 ⟨m, hp, rfl⟩
      have gi : Good (productMarking traceIm im : Marking (Nat ⊕ P)) := good_product (good_single 0) hi
      have hk1 : (keys traceIm).Nodup := by simp [traceIm, keys]
      rw [crun_product _ _ (traceNet_unit tr) hu _ _ _ (fun p => gi.2.count_nonneg p), count_product_inl _ _ hk1 hi.1,
        count_traceIm, crun_trace] at hrun
      obtain ⟨_, ⟨_, _, hg⟩, _⟩ := hrun
      have e1 := congrFun hg tr.length
      have e2 := congrFun hg i
      have hi' := ((mem_product_sync _ _ i t).1 ((Net.isEnabled_iff _ _ _).1 hen).1).1
      have hi'' : i < tr.length := by simpa [traceNet] using hi'
      have hci : 1 ≤ count m (.inl i) := by
        have := ((Net.isEnabled_iff _ _ _).1 hen).2 (.inl i, 1) (by simp [product, copyArcs, traceNet])
        exact this
      simp only [one, Nat.zero_add] at e1 e2
      split at e1
      · split at e2 <;> omega
      · omega
  · intro a b ha hb hab
    have ga := hgood ha
    have gb := hgood hb
    have hc := (C02_eq _ _ ga.2 gb.2).1 hab
    rw [Bool.eq_iff_iff, le_stop _ _ ga.2, le_stop _ _ gb.2, hc]

/-! ### The activities counted as enabled -/

theorem run_congr (net : Net P T) {m n m' : Marking P} (h : SameTokens m n) (ts : List T)
    (hr : ts.foldlM (fun m t => net.execute t m) m = some m') :
    ∃ n', ts.foldlM (fun m t => net.execute t m) n = some n' ∧ SameTokens m' n' := by
  induction ts generalizing m n with
  | nil => simp at hr; subst hr; exact ⟨n, rfl, h⟩
  | cons t ts ih =>
    simp only [List.foldlM_cons, Option.bind_eq_bind, Option.bind_eq_some_iff] at hr
    obtain ⟨m1, h1, h2⟩ := hr
    obtain ⟨n1, h3⟩ := (execute_some_iff t).2 (isEnabled_congr h t ((execute_some_iff t).1 ⟨m1, h1⟩))
    obtain ⟨n', h4, h5⟩ := ih (execute_congr h h1 h3) h2
    exact ⟨n', by simp [h3, h4], h5⟩

theorem EventuallyEnabled.congr {net : LNet P T A} {m n : Marking P} (h : SameTokens m n) {t : T}
    (he : EventuallyEnabled net m t) : EventuallyEnabled net n t := by
  obtain ⟨h1, m', ⟨ts, h2, h3⟩, h4⟩ := he
  obtain ⟨n', h5, h6⟩ := run_congr net.toNet h ts h3
  exact ⟨h1, n', ⟨ts, h2, h5⟩, isEnabled_congr h6 t h4⟩

theorem OneContext.congr {net : LNet P T A} {m n : Marking P} (h : SameTokens m n) (ho : OneContext net m) : OneContext net n := by
  rintro t hl n1 n2 ⟨ts1, a1, r1⟩ ⟨ts2, a2, r2⟩ e1 e2
  have h' : SameTokens n m := fun p => (h p).symm
  obtain ⟨m1, q1, s1⟩ := run_congr net.toNet h' ts1 r1
  obtain ⟨m2, q2, s2⟩ := run_congr net.toNet h' ts2 r2
  have := ho t hl m1 m2 ⟨ts1, a1, q1⟩ ⟨ts2, a2, q2⟩ (isEnabled_congr s1 t e1) (isEnabled_congr s2 t e2)
  intro p; rw [s1 p, s2 p]; exact this p

/-- the label `a` can be the next visible activity after a shortest replay of `tr` -/
def NextLabel (net : LNet P T A) (im : Marking P) (tr : List A) (a : A) : Prop :=
  ∃ m t, ShortestReplay net im tr m ∧ EventuallyEnabled net m t ∧ net.label t = some a

/-- C66: the labels that align-ETConformance counts as activated after a prefix can all follow a shortest replay of the
prefix; if every silent transition has one context in the markings concerned, they are exactly the labels that can. -/
theorem _root_.Verif.C66_activated (tr : List A) (net : LNet P T A) (hs : net.toNet.Simple) (hu : UnitWeights net.toNet)
    (hin : ∀ t ∈ net.transitions, net.label t = none → net.inArcs t ≠ []) (im fm : Marking P) (hi : Good im) (hf : Good fm)
    (sch : Sched (Marking (Nat ⊕ P)) (Move Nat T)) (hsch : sch.Ok) (n : Nat) (l : List (Marking (Nat ⊕ P)))
    (h : alignStop tr net im fm sch n = .done (some l)) (ord : List T → List T) (ho : ∀ l, (ord l).Perm l) (k : Nat) :
    (activatedLabels net ord k (l.map toOriginal)).Nodup ∧
    (∀ a ∈ activatedLabels net ord k (l.map toOriginal), NextLabel net im tr a) ∧
    ((∀ x ∈ l, (eeRun net ord (toOriginal x) k).Done) → (∀ m, ShortestReplay net im tr m → OneContext net m) →
      ∀ a, NextLabel net im tr a → a ∈ activatedLabels net ord k (l.map toOriginal)) := by
  obtain ⟨h1, h2⟩ := (C66_markings tr net hs hu hin im fm hi hf sch hsch n (some l) h).2 l rfl
  refine ⟨nodup_dedup _, ?_, ?_⟩
  · intro a ha
    rw [activatedLabels, mem_dedup, List.mem_flatMap] at ha
    obtain ⟨m', hm', ha⟩ := ha
    obtain ⟨x, hx, rfl⟩ := List.mem_map.1 hm'
    obtain ⟨t, ht, hta⟩ := List.mem_filterMap.1 ha
    obtain ⟨_, m, h3, h4⟩ := h1 x hx
    exact ⟨m, t, h3, (C66_eventually_sound net ord ho _ k t ht).congr h4, hta⟩
  · rintro hd hone a ⟨m, t, h3, h4, h5⟩
    obtain ⟨x, hx, hsame⟩ := h2 m h3
    have hsame' : SameTokens m (toOriginal x) := fun p => (hsame p).symm
    have h6 := (C66_eventually_complete net ord ho (toOriginal x) ((hone m h3).congr hsame') k (hd x hx) t).1 (h4.congr hsame')
    rw [activatedLabels, mem_dedup, List.mem_flatMap]
    exact ⟨_, List.mem_map.2 ⟨x, hx, rfl⟩, List.mem_filterMap.2 ⟨t, h6, h5⟩⟩
end Precision
end Verif
