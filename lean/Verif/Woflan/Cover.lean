import Verif.Woflan.Reach
set_option linter.unusedSectionVars false
/-
C63: the minimal coverability graph of a bounded net.
-/
namespace Verif.Woflan
variable {P T : Type}

/-- Every node has a reachable marking and every edge is the firing of its transition. -/
structure MInv (N : WNet P T) (m0 : Mk P) (s : Mct P T) : Prop where
  nodes : ∀ x v, s.mark x = some v → ∃ m, v = vec m ∧ Reaches N m0 m
  edges : ∀ x t y, (x, t, y) ∈ s.edges → ∃ m m', s.mark x = some (vec m) ∧ s.mark y = some (vec m') ∧ Fires N m t m'
  fresh : ∀ x, s.next ≤ x → s.mark x = none

theorem MInv.congr {N : WNet P T} {m0 : Mk P} {s s' : Mct P T} (h : MInv N m0 s) (h1 : s'.mark = s.mark)
    (h2 : s'.edges = s.edges) (h3 : s'.next = s.next) : MInv N m0 s' := by
  refine ⟨?_, ?_, ?_⟩
  · rw [h1]; exact h.nodes
  · rw [h1, h2]; exact h.edges
  · rw [h1, h3]; exact h.fresh

theorem MInv.forget {N : WNet P T} {m0 : Mk P} {s : Mct P T} (h : MInv N m0 s) (D : Nat → Prop) : MInv N m0 (s.forget D) :=
  h.congr rfl rfl rfl

theorem MInv.remove {N : WNet P T} {m0 : Mk P} {s : Mct P T} (h : MInv N m0 s) (D : Nat → Prop) : MInv N m0 (s.remove D) := by
  refine ⟨?_, ?_, ?_⟩
  · intro x v hx
    simp only [Mct.remove] at hx
    split at hx
    · cases hx
    · exact h.nodes x v hx
  · intro x t y hxy
    simp only [Mct.remove, List.mem_filter, decide_eq_true_eq] at hxy
    obtain ⟨m, m', h1, h2, h3⟩ := h.edges x t y hxy.1
    refine ⟨m, m', ?_, ?_, h3⟩
    · simp only [Mct.remove]; rw [if_neg hxy.2.1]; exact h1
    · simp only [Mct.remove]; rw [if_neg hxy.2.2]; exact h2
  · intro x hx
    simp only [Mct.remove] at hx ⊢
    split
    · rfl
    · exact h.fresh x hx

theorem clean_inv {N : WNet P T} {m0 : Mk P} {m2 : Vec P} {todo : List Nat} {s s' : Mct P T} (hc : Clean m2 todo s s')
    (h : MInv N m0 s) : MInv N m0 s' := by
  induction hc with
  | nil => exact h
  | skip _ _ ih => exact ih h
  | hit _ _ _ _ ih => exact ih ((h.forget _).remove _)

theorem desc_reaches {N : WNet P T} {m0 : Mk P} {s : Mct P T} (h : MInv N m0 s) {x y : Nat} (hd : s.Desc x y) {m : Mk P}
    (hx : s.mark x = some (vec m)) : ∃ m', s.mark y = some (vec m') ∧ Reaches N m m' := by
  unfold Mct.Desc at hd
  induction hd with
  | refl => exact ⟨m, hx, .refl⟩
  | tail _ e ih =>
    obtain ⟨m1, h1, h2⟩ := ih
    obtain ⟨t, ht⟩ := e
    obtain ⟨a, b, h3, h4, h5⟩ := h.edges _ _ _ ht
    have : m1 = a := vec_inj (Option.some.inj (h1.symm.trans h3))
    subst this
    exact ⟨b, h4, .tail h2 ⟨t, h5⟩⟩

theorem desc_of_path {s : Mct P T} : ∀ {path : List Nat} {n x : Nat}, path.IsChain s.Edge → path.getLast? = some n → x ∈ path →
    s.Desc x n
  | [], _, _, _, _, hx => by cases hx
  | [a], n, x, _, hl, hx => by
    simp at hl hx
    subst hl; subst hx
    exact .refl
  | a :: b :: l, n, x, hc, hl, hx => by
    rw [List.isChain_cons_cons] at hc
    have hl' : (b :: l).getLast? = some n := by
      rw [List.getLast?_cons_cons] at hl; exact hl
    rcases List.mem_cons.1 hx with rfl | hx
    · exact .head hc.1 (desc_of_path hc.2 hl' List.mem_cons_self)
    · exact desc_of_path hc.2 hl' hx

/-- In a bounded net nothing is accelerated. -/
theorem accelerate_eq {N : WNet P T} {m0 : Mk P} (hb : Bounded N m0) {s : Mct P T} (h : MInv N m0 s) {n : Nat} {v : Vec P}
    (hn : s.mark n = some v) : s.accelerate n v = v := by
  funext p
  unfold Mct.accelerate
  rw [if_neg]
  rintro ⟨a, w, ⟨_, ha⟩, hw, hle, hlt⟩
  obtain ⟨ma, rfl, hra⟩ := h.nodes a w hw
  obtain ⟨m, hm, hr⟩ := desc_reaches h ha hw
  have e : v = vec m := Option.some.inj (hn.symm.trans hm)
  subst e
  have := bounded_eq hb hra hr (vec_le.1 hle)
  subst this
  exact absurd hlt (lt_irrefl _)

theorem addSucc_inv {N : WNet P T} {m0 : Mk P} {n : Nat} {m : Mk P} (hr : Reaches N m0 m) (hN : Listed N)
    (todo : List (Vec P × T)) (ht : ∀ el ∈ todo, el ∈ enabledMarkings N (vec m)) (s : Mct P T) (h : MInv N m0 s)
    (hn : s.mark n = some (vec m)) : MInv N m0 (todo.foldl (addSucc n) s) := by
  induction todo generalizing s with
  | nil => exact h
  | cons el todo ih =>
    obtain ⟨v, t⟩ := el
    obtain ⟨m', rfl, hf⟩ := (mem_enabled hN).1 (ht _ List.mem_cons_self)
    have hne : ∀ x v, s.mark x = some v → x ≠ s.next := by
      intro x v hx e
      rw [e, h.fresh _ (Nat.le_refl _)] at hx
      cases hx
    refine ih (fun e he => ht e (List.mem_cons_of_mem _ he)) _ ⟨?_, ?_, ?_⟩ ?_
    · intro x w hx
      simp only [addSucc] at hx
      split at hx
      · cases hx; exact ⟨m', rfl, .tail hr ⟨t, hf⟩⟩
      · exact h.nodes x w hx
    · intro x t' y hxy
      simp only [addSucc, List.mem_append, List.mem_singleton, Prod.mk.injEq] at hxy ⊢
      rcases hxy with hxy | ⟨rfl, rfl, rfl⟩
      · obtain ⟨a, b, h1, h2, h3⟩ := h.edges x t' y hxy
        exact ⟨a, b, by rw [if_neg (hne _ _ h1)]; exact h1, by rw [if_neg (hne _ _ h2)]; exact h2, h3⟩
      · exact ⟨m, m', by rw [if_neg (hne _ _ hn)]; exact hn, by rw [if_pos rfl], hf⟩
    · intro x hx
      simp only [addSucc] at hx ⊢
      rw [if_neg (by omega)]
      exact h.fresh x (by omega)
    · simp only [addSucc]
      rw [if_neg (hne _ _ hn)]; exact hn

theorem mctStep_inv {N : WNet P T} (hN : Listed N) {m0 : Mk P} (hb : Bounded N m0) {s s' : Mct P T} (h : MInv N m0 s)
    (hs : MctStep N s s') : MInv N m0 s' := by
  cases hs with
  | same _ _ _ => exact h.congr rfl rfl rfl
  | @smaller us _ _ _ _ _ _ _ => exact (h.congr (s' := { s with unproc := us }) rfl rfl rfl).remove _
  | @greaterAncestor us n v n1 _ path todo hu hn _ _ _ _ _ hlast hchain hfind _ hcl =>
    refine clean_inv hcl ?_
    have hacc := accelerate_eq hb h hn
    have hdesc := desc_of_path hchain hlast (List.mem_of_find?_eq_some hfind)
    have hfind' := List.find?_some hfind
    simp only [decide_eq_true_eq] at hfind'
    obtain ⟨w, hw, hle⟩ := hfind'
    rw [hacc] at hle
    obtain ⟨a, rfl, hra⟩ := h.nodes n1 w hw
    obtain ⟨b, hb', hr⟩ := desc_reaches h hdesc hw
    have e : v = vec b := Option.some.inj (hn.symm.trans hb')
    subst e
    have e2 := bounded_eq hb hra hr (vec_le.1 hle)
    subst e2
    have h1 := (((h.congr (s' := { s with unproc := us }) rfl rfl rfl).forget (s.Desc n1)).remove
      fun x => s.Desc n1 x ∧ x ≠ n1)
    refine h1.congr ?_ rfl rfl
    funext x
    simp only [Mct.renew]
    split
    · rename_i e
      subst e
      rw [hacc]
      simp only [Mct.remove, Mct.forget]
      rw [if_neg (fun hc => hc.2 rfl), hw]
    · rfl
  | @greater us _ _ _ _ hu hn _ _ _ _ _ hcl =>
    have := clean_inv hcl (h.congr (s' := { s with unproc := us }) rfl rfl rfl)
    exact this.congr rfl rfl rfl
  | @expand us n v hu hn _ _ _ =>
    obtain ⟨m, rfl, hr⟩ := h.nodes n v hn
    have := addSucc_inv hr hN (enabledMarkings N (vec m)) (fun _ he => he) { s with unproc := us }
      (h.congr rfl rfl rfl) hn
    exact this.congr rfl rfl rfl

theorem mctInit_inv (N : WNet P T) (m0 : Mk P) : MInv N m0 (mctInit (vec m0)) := by
  refine ⟨?_, by simp [mctInit], ?_⟩
  · intro x v hx
    simp only [mctInit] at hx
    split at hx
    · cases hx; exact ⟨m0, rfl, .refl⟩
    · cases hx
  · intro x hx
    simp only [mctInit] at hx ⊢
    rw [if_neg (by omega)]

theorem mct_inv {N : WNet P T} (hN : Listed N) {m0 : Mk P} (hb : Bounded N m0) {s : Mct P T}
    (hs : Relation.ReflTransGen (MctStep N) (mctInit (vec m0)) s) : MInv N m0 s := by
  induction hs with
  | refl => exact mctInit_inv N m0
  | tail _ e ih => exact mctStep_inv hN hb ih e

/-- If the net is bounded and no task is dead according to the minimal coverability graph, every labelled transition can
    fire. -/
theorem tasks_fire {N : WNet P T} (hN : Listed N) {m0 : Mk P} (hb : Bounded N m0) {s : Mct P T} (hs : MctEnds N (vec m0) s)
    (hd : deadTasks N s = []) (t : T) (ht : N.label t ≠ none) : ∃ m, Reaches N m0 m ∧ Enabled N m t := by
  have hi : MInv N m0 s := mct_inv hN hb hs.1
  unfold deadTasks at hd
  rw [List.filter_eq_nil_iff] at hd
  have := hd t (hN.trans t)
  simp only [decide_eq_true_eq, not_and, not_not] at this
  obtain ⟨x, y, ⟨a, b, hab, _⟩, _⟩ := this ht
  obtain ⟨m, m', h1, _, h3⟩ := hi.edges a t b hab
  obtain ⟨m1, e, hr⟩ := hi.nodes a _ h1
  rw [← vec_inj e] at hr
  exact ⟨m, hr, h3.1⟩

end Verif.Woflan
