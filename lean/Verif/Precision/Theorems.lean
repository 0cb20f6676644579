import Verif.Precision.Markings
/-
C66: `pm4py.precision_alignments` as a whole.
-/
set_option linter.unusedSectionVars false
namespace Verif
open Dict Reach Align
namespace Precision
variable {P T : Type} [DecidableEq P] [DecidableEq T]

/-! ### Model -/

/-- what the run-time decides: heap and set orders, the order of `sorted`, and how many iterations the loops made -/
structure Exec (P T : Type) where
  sch : List Str → Sched (Marking (Nat ⊕ P)) (Move Nat T)
  ord : List T → List T
  n : List Str → Nat
  k : Nat

/-- activated labels of a prefix (align_etconformance.py:89-103), `none` if no marking was found -/
def alignAct (net : LNet P T Str) (im fm : Marking P) (e : Exec P T) (tr : List Str) : Option (List Str) :=
  match alignStop tr net im fm (e.sch tr) (e.n tr) with
  | .done (some l) => some (activatedLabels net e.ord e.k (l.map toOriginal))
  | _ => none

/-- `trans_en_ini_marking` (align_etconformance.py:126) -/
def iniLabels (net : LNet P T Str) (im : Marking P) (e : Exec P T) : List Str :=
  dedup ((eeRun net e.ord im e.k).visible.filterMap net.label)

/-- `apply` of align_etconformance.py:46-135 on an event log (the check for easy soundness, which raises an error, is not
modelled) -/
def precisionAlignments (log : List (List Str)) (net : LNet P T Str) (im fm : Marking P) (e : Exec P T) : Sums :=
  sums log (alignAct net im fm e) (iniLabels net im e) log.length

/-- the orders are legal and all loops have ended -/
structure Exec.Ends (e : Exec P T) (log : List (List Str)) (net : LNet P T Str) (im fm : Marking P) : Prop where
  sch : ∀ p, (e.sch p).Ok
  ord : ∀ l, (e.ord l).Perm l
  search : ∀ p ∈ visited log, ∃ r, alignStop p net im fm (e.sch p) (e.n p) = .done r ∧
    ∀ l, r = some l → ∀ x ∈ l, (eeRun net e.ord (toOriginal x) e.k).Done
  ini : (eeRun net e.ord im e.k).Done

/-! ### Specification -/

/-- the states a log visits: for every trace its proper prefixes, the empty one included -/
def states (log : List (List Str)) : List (List Str) := log.flatMap fun tr => [] :: properPrefixes tr

/-- after a shortest replay of the prefix, every silent transition has one context -/
def OneContexts (net : LNet P T Str) (im : Marking P) (p : List Str) : Prop :=
  ∀ m, ShortestReplay net im p m → OneContext net m

/-! ### Proofs -/

theorem shortest_nil (net : LNet P T Str) (im : Marking P) (m : Marking P) : ShortestReplay net im [] m ↔ m = im := by
  constructor
  · rintro ⟨ts, ⟨h1, h2⟩, h3⟩
    have h4 := h3 [] im ⟨rfl, rfl⟩
    have h5 : ts = [] := by
      cases ts with
      | nil => rfl
      | cons t ts =>
        exfalso
        cases hl : net.label t with
        | none => simp [silents, hl] at h4
        | some a => rw [List.filterMap_cons, hl] at h2; cases h2
    subst h5; simp at h1; exact h1.symm
  · rintro rfl
    exact ⟨[], ⟨rfl, rfl⟩, fun _ _ _ => by simp [silents]⟩

theorem perm_of_same {l l' : List Str} (h : l.Nodup) (h' : l'.Nodup) (hm : ∀ a, a ∈ l ↔ a ∈ l') : l.Perm l' :=
  (List.perm_ext_iff_of_nodup h h').2 hm

theorem escaping_perm (log : List (List Str)) (p : List Str) {l l' : List Str} (h : l.Perm l') : escaping log p l = escaping log p l' := by
  unfold escaping; exact (h.filter _).length_eq

theorem flatMap_states (log : List (List Str)) (f : List Str → Nat) :
    ((states log).map f).sum = log.length * f [] + ((visited log).map f).sum := by
  unfold states visited
  induction log with
  | nil => simp
  | cons tr log ih =>
    simp only [List.flatMap_cons, List.map_append, List.sum_append, ih, List.map_cons, List.sum_cons, List.length_cons,
      List.cons_append, Nat.succ_mul]
    omega

/-- C66: `precision_alignments`.  Let `next p` be the set of activities the model allows after the prefix `p`: those
that can be the next visible activity after replaying `p` with as few silent transitions as possible.  Over all states
(trace and position) the log visits, the code counts the activities in `next p`, and among them those the log never
takes after `p`; the result is 1 minus the quotient. -/
theorem _root_.Verif.C66_precision (log : List (List Str)) (hsep : NoSep log) (net : LNet P T Str) (hs : net.toNet.Simple)
    (hu : UnitWeights net.toNet) (hin : ∀ t ∈ net.transitions, net.label t = none → net.inArcs t ≠ [])
    (im fm : Marking P) (hi : Good im) (hf : Good fm) (e : Exec P T) (he : e.Ends log net im fm)
    (hone : ∀ p ∈ [] :: visited log, OneContexts net im p)
    (next : List Str → List Str) (hnd : ∀ p, (next p).Nodup) (hnext : ∀ p a, a ∈ next p ↔ NextLabel net im p a) :
    (precisionAlignments log net im fm e).at_ = ((states log).map fun p => (next p).length).sum ∧
    (precisionAlignments log net im fm e).ee = ((states log).map fun p => escaping log p (next p)).sum := by
  obtain ⟨h1, h2⟩ := C66_formula log hsep (alignAct net im fm e) (iniLabels net im e)
  have hini : (iniLabels net im e).Perm (next []) := by
    refine perm_of_same (nodup_dedup _) (hnd _) fun a => ?_
    rw [hnext, iniLabels, mem_dedup, List.mem_filterMap]
    have hoc := hone [] List.mem_cons_self im ((shortest_nil net im im).2 rfl)
    constructor
    · rintro ⟨t, ht, hl⟩
      exact ⟨im, t, (shortest_nil _ _ _).2 rfl, C66_eventually_sound net e.ord he.ord im e.k t ht, hl⟩
    · rintro ⟨m, t, hm, ht, hl⟩
      rw [shortest_nil] at hm; subst hm
      exact ⟨t, (C66_eventually_complete net e.ord he.ord m hoc e.k he.ini t).1 ht, hl⟩
  have hact : ∀ p ∈ visited log, ((alignAct net im fm e p).getD []).Perm (next p) := by
    intro p hp
    obtain ⟨r, hr, hd⟩ := he.search p hp
    unfold alignAct
    rw [hr]
    cases r with
    | none =>
      have hno := (C66_markings p net hs hu hin im fm hi hf _ (he.sch p) _ none hr).1.1 rfl
      have : next p = [] := by
        rw [List.eq_nil_iff_forall_not_mem]
        intro a ha
        obtain ⟨m, t, ⟨ts, hrep, _⟩, _⟩ := (hnext p a).1 ha
        exact hno ⟨ts, m, hrep⟩
      simp [this]
    | some l =>
      obtain ⟨h3, h4, h5⟩ := C66_activated p net hs hu hin im fm hi hf _ (he.sch p) _ l hr e.ord he.ord e.k
      refine perm_of_same h3 (hnd _) fun a => ?_
      rw [hnext]
      exact ⟨h4 a, h5 (hd l rfl) (hone p (List.mem_cons_of_mem _ hp)) a⟩
  constructor
  · unfold precisionAlignments
    rw [h1, flatMap_states, allowed, hini.length_eq]
    congr 2
    exact List.map_congr_left fun p hp => (hact p hp).length_eq
  · unfold precisionAlignments
    rw [h2, flatMap_states, escapingTotal, escaping_perm log [] hini]
    congr 2
    exact List.map_congr_left fun p hp => escaping_perm log p (hact p hp)

end Precision
end Verif
