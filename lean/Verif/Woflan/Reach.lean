import Verif.Woflan.Basic
import Batteries.Data.List.Perm
set_option linter.unusedSectionVars false
/-
C63: the reachability graph.
-/
namespace Verif.Woflan
variable {P T : Type}

/-- Invariant of the construction, except for the edges at the node `cur` (if any), for which only the markings `done` have
    been visited. -/
structure RgInv (N : WNet P T) (m0 : Mk P) (at? : Option (Nat × Mk P)) (done : List (Vec P × T)) (s : Rg P T) : Prop where
  init : s.nodes[0]? = some (vec m0)
  reach : ∀ v ∈ s.nodes, ∃ m, v = vec m ∧ Reaches N m0 m
  nodup : s.nodes.Nodup
  sound : ∀ a t b, (a, t, b) ∈ s.edges → ∃ m m', s.nodes[a]? = some (vec m) ∧ s.nodes[b]? = some (vec m') ∧ Fires N m t m'
  work : s.working.Nodup ∧ ∀ k ∈ s.working, k < s.nodes.length
  cur : ∀ c, at? = some c → s.nodes[c.1]? = some (vec c.2) ∧ c.1 ∉ s.working ∧
    ∀ v t, (v, t) ∈ done → ∃ b, (c.1, t, b) ∈ s.edges ∧ s.nodes[b]? = some v
  complete : ∀ k m, s.nodes[k]? = some (vec m) → k ∉ s.working → (∀ c, at? = some c → c.1 ≠ k) → ∀ t m', Fires N m t m' →
    ∃ b, (k, t, b) ∈ s.edges ∧ s.nodes[b]? = some (vec m')

theorem getElem?_append_some {α : Type} {l l' : List α} {k : Nat} {a : α} (h : l[k]? = some a) : (l ++ l')[k]? = some a := by
  have : k < l.length := by
    by_contra hc
    rw [List.getElem?_eq_none (by omega)] at h
    cases h
  rw [List.getElem?_append_left this]
  exact h

theorem rgVisit_inv {N : WNet P T} (hN : Listed N) (h1000 : N.places.length ≤ 1000) {m0 : Mk P} {c : Nat × Mk P}
    {done : List (Vec P × T)} {s : Rg P T} (h : RgInv N m0 (some c) done s) (el : Vec P × T)
    (hel : el ∈ enabledMarkings N (vec c.2)) : RgInv N m0 (some c) (done ++ [el]) (rgVisit N c.1 s el) := by
  obtain ⟨v, t⟩ := el
  obtain ⟨m', rfl, hf⟩ := (mem_enabled hN).1 hel
  obtain ⟨c1, c2, c3⟩ := h.cur c rfl
  have hr : Reaches N m0 m' := by
    obtain ⟨m, e, hm⟩ := h.reach _ (List.mem_of_getElem? c1)
    rw [vec_inj e] at hf
    exact .tail hm ⟨t, hf⟩
  unfold rgVisit
  split
  · rename_i k hk
    have hk' : s.nodes[k]? = some (vec m') := by
      obtain ⟨hlt, h2, _⟩ := List.findIdx?_eq_some_iff_getElem.1 hk
      rw [List.getElem?_eq_getElem hlt, key_inj hN h1000 (of_decide_eq_true h2)]
    refine ⟨h.init, h.reach, h.nodup, ?_, h.work, ?_, ?_⟩
    · intro a t' b hab
      simp only [List.mem_append, List.mem_singleton, Prod.mk.injEq] at hab
      rcases hab with hab | ⟨rfl, rfl, rfl⟩
      · exact h.sound a t' b hab
      · exact ⟨c.2, m', c1, hk', hf⟩
    · rintro _ ⟨⟩
      refine ⟨c1, c2, ?_⟩
      intro v' t' hv
      simp only [List.mem_append, List.mem_singleton, Prod.mk.injEq] at hv
      rcases hv with hv | ⟨rfl, rfl⟩
      · obtain ⟨b, hb, hb'⟩ := c3 v' t' hv
        exact ⟨b, List.mem_append_left _ hb, hb'⟩
      · exact ⟨k, by simp, hk'⟩
    · intro k' m hk1 hk2 hk3 t' m'' hf'
      obtain ⟨b, hb, hb'⟩ := h.complete k' m hk1 hk2 hk3 t' m'' hf'
      exact ⟨b, List.mem_append_left _ hb, hb'⟩
  · rename_i hk
    have hnew : vec m' ∉ s.nodes := by
      intro hm
      rw [List.findIdx?_eq_none_iff] at hk
      have := hk _ hm
      simp at this
    refine ⟨getElem?_append_some h.init, ?_, ?_, ?_, ?_, ?_, ?_⟩
    · intro v hv
      simp only [List.mem_append, List.mem_singleton] at hv
      rcases hv with hv | rfl
      · exact h.reach v hv
      · exact ⟨m', rfl, hr⟩
    · simp only [List.nodup_append, List.nodup_cons, List.not_mem_nil, not_false_eq_true, List.nodup_nil, and_true, true_and,
        List.mem_singleton]
      exact ⟨h.nodup, fun a ha b hb e => by subst hb; subst e; exact hnew ha⟩
    · intro a t' b hab
      simp only [List.mem_append, List.mem_singleton, Prod.mk.injEq] at hab
      rcases hab with hab | ⟨rfl, rfl, rfl⟩
      · obtain ⟨x, y, h1, h2, h3⟩ := h.sound a t' b hab
        exact ⟨x, y, getElem?_append_some h1, getElem?_append_some h2, h3⟩
      · exact ⟨c.2, m', getElem?_append_some c1, by simp, hf⟩
    · refine ⟨?_, ?_⟩
      · simp only [List.nodup_cons]
        exact ⟨fun hm => absurd (h.work.2 _ hm) (by omega), h.work.1⟩
      · intro k hk
        simp only [List.mem_cons] at hk
        simp only [List.length_append, List.length_cons, List.length_nil]
        rcases hk with rfl | hk
        · omega
        · have := h.work.2 k hk; omega
    · rintro _ ⟨⟩
      refine ⟨getElem?_append_some c1, ?_, ?_⟩
      · simp only [List.mem_cons, not_or]
        refine ⟨?_, c2⟩
        intro e
        rw [e, List.getElem?_eq_none (Nat.le_refl _)] at c1
        cases c1
      · intro v' t' hv
        simp only [List.mem_append, List.mem_singleton, Prod.mk.injEq] at hv
        rcases hv with hv | ⟨rfl, rfl⟩
        · obtain ⟨b, hb, hb'⟩ := c3 v' t' hv
          exact ⟨b, List.mem_append_left _ hb, getElem?_append_some hb'⟩
        · exact ⟨s.nodes.length, by simp, by simp⟩
    · intro k' m hk1 hk2 hk3 t' m'' hf'
      simp only [List.mem_cons, not_or] at hk2
      have hk1' : s.nodes[k']? = some (vec m) := by
        by_cases hlt : k' < s.nodes.length
        · rw [List.getElem?_append_left hlt] at hk1; exact hk1
        · have : k' ≠ s.nodes.length := hk2.1
          rw [List.getElem?_eq_none (by simp; omega)] at hk1
          cases hk1
      obtain ⟨b, hb, hb'⟩ := h.complete k' m hk1' hk2.2 hk3 t' m'' hf'
      exact ⟨b, List.mem_append_left _ hb, getElem?_append_some hb'⟩

theorem rgFold_inv {N : WNet P T} (hN : Listed N) (h1000 : N.places.length ≤ 1000) {m0 : Mk P} {c : Nat × Mk P}
    (todo : List (Vec P × T)) (ht : ∀ el ∈ todo, el ∈ enabledMarkings N (vec c.2)) (done : List (Vec P × T)) (s : Rg P T)
    (h : RgInv N m0 (some c) done s) : RgInv N m0 (some c) (done ++ todo) (todo.foldl (rgVisit N c.1) s) := by
  induction todo generalizing done s with
  | nil => simpa using h
  | cons el todo ih =>
    have := ih (fun e he => ht e (List.mem_cons_of_mem _ he)) (done ++ [el]) _
      (rgVisit_inv hN h1000 h el (ht el List.mem_cons_self))
    simpa using this

theorem rgStep_inv {N : WNet P T} (hN : Listed N) (h1000 : N.places.length ≤ 1000) {m0 : Mk P} {s s' : Rg P T}
    (h : RgInv N m0 none [] s) (hs : RgStep N s s') : RgInv N m0 none [] s' := by
  obtain ⟨hm, hv⟩ := hs
  rename_i m v
  obtain ⟨x, rfl, hx⟩ := h.reach _ (List.mem_of_getElem? hv)
  have h0 : RgInv N m0 (some (m, x)) [] { s with working := s.working.erase m } := by
    refine ⟨h.init, h.reach, h.nodup, h.sound, ⟨h.work.1.erase _, fun k hk => h.work.2 k (List.mem_of_mem_erase hk)⟩, ?_, ?_⟩
    · rintro _ ⟨⟩
      exact ⟨hv, fun hc => by
        have := (List.Nodup.mem_erase_iff h.work.1).1 hc
        exact this.1 rfl, fun v t hvt => by cases hvt⟩
    · intro k m1 hk1 hk2 hk3
      refine h.complete k m1 hk1 ?_ (by simp)
      intro hk
      exact hk2 ((List.Nodup.mem_erase_iff h.work.1).2 ⟨fun e => hk3 _ rfl e.symm, hk⟩)
  have h1 := rgFold_inv hN h1000 (c := (m, x)) (enabledMarkings N (vec x)) (fun _ he => he) [] _ h0
  refine ⟨h1.init, h1.reach, h1.nodup, h1.sound, h1.work, by simp, ?_⟩
  intro k m1 hk1 hk2 _ t m' hf
  by_cases hkm : k = m
  · subst hkm
    obtain ⟨c1, c2, c3⟩ := h1.cur _ rfl
    simp only at c1 c2 c3
    have e : m1 = x := vec_inj (Option.some.inj (hk1.symm.trans c1))
    subst e
    exact c3 _ t (by simpa using (mem_enabled hN).2 ⟨m', rfl, hf⟩)
  · exact h1.complete k m1 hk1 hk2 (by rintro _ ⟨⟩ e; exact hkm e.symm) t m' hf

theorem rgInit_inv (N : WNet P T) (m0 : Mk P) : RgInv N m0 none [] (rgInit (vec m0)) := by
  refine ⟨rfl, ?_, by simp [rgInit], by simp [rgInit], by simp [rgInit], by simp, ?_⟩
  · intro v hv
    simp only [rgInit, List.mem_singleton] at hv
    exact ⟨m0, hv, .refl⟩
  · intro k m hk hw
    exfalso
    cases k with
    | zero => simp [rgInit] at hw
    | succ k => simp [rgInit] at hk

theorem rg_inv {N : WNet P T} (hN : Listed N) (h1000 : N.places.length ≤ 1000) {m0 : Mk P} {s : Rg P T}
    (h : Relation.ReflTransGen (RgStep N) (rgInit (vec m0)) s) : RgInv N m0 none [] s := by
  induction h with
  | refl => exact rgInit_inv N m0
  | tail _ hs ih => exact rgStep_inv hN h1000 ih hs

theorem rg_reach {N : WNet P T} (hN : Listed N) (h1000 : N.places.length ≤ 1000) {m0 : Mk P} {g : Rg P T}
    (h : RgEnds N (vec m0) g) {k : Nat} {m m' : Mk P} (hk : g.nodes[k]? = some (vec m)) (hr : Reaches N m m') :
    ∃ b, g.nodes[b]? = some (vec m') ∧ Relation.ReflTransGen (fun a b => ∃ t, (a, t, b) ∈ g.edges) k b := by
  have hi := rg_inv hN h1000 h.1
  induction hr with
  | refl => exact ⟨k, hk, .refl⟩
  | tail _ hs ih =>
    obtain ⟨b, hb, hp⟩ := ih
    obtain ⟨t, ht⟩ := hs
    obtain ⟨b', h1, h2⟩ := hi.complete b _ hb (by rw [h.2]; simp) (by simp) t _ ht
    exact ⟨b', h2, .tail hp ⟨t, h1⟩⟩

theorem rg_path {N : WNet P T} (hN : Listed N) (h1000 : N.places.length ≤ 1000) {m0 : Mk P} {g : Rg P T}
    (h : RgEnds N (vec m0) g) {a b : Nat} {m : Mk P} (ha : g.nodes[a]? = some (vec m))
    (hp : Relation.ReflTransGen (fun a b => ∃ t, (a, t, b) ∈ g.edges) a b) :
    ∃ m', g.nodes[b]? = some (vec m') ∧ Reaches N m m' := by
  have hi := rg_inv hN h1000 h.1
  induction hp with
  | refl => exact ⟨m, ha, .refl⟩
  | tail _ e ih =>
    obtain ⟨m1, h1, h2⟩ := ih
    obtain ⟨t, ht⟩ := e
    obtain ⟨x, y, h3, h4, h5⟩ := hi.sound _ _ _ ht
    have : m1 = x := vec_inj (Option.some.inj (h1.symm.trans h3))
    subst this
    exact ⟨y, h4, .tail h2 ⟨t, h5⟩⟩

/-- If the construction ends, finitely many markings can be reached. -/
theorem rg_bounded {N : WNet P T} (hN : Listed N) (h1000 : N.places.length ≤ 1000) {m0 : Mk P} {g : Rg P T}
    (h : RgEnds N (vec m0) g) : Bounded N m0 := by
  have hi := rg_inv hN h1000 h.1
  have hall : ∀ m, Reaches N m0 m → vec m ∈ g.nodes := by
    intro m hm
    obtain ⟨b, hb, _⟩ := rg_reach hN h1000 h hi.init hm
    exact List.mem_of_getElem? hb
  -- the list of the markings of the nodes
  have : ∀ l : List (Vec P), (∀ v ∈ l, ∃ m : Mk P, v = vec m) → ∃ l' : List (Mk P), l = l'.map vec := by
    intro l hl
    induction l with
    | nil => exact ⟨[], rfl⟩
    | cons v l ih =>
      obtain ⟨m, rfl⟩ := hl v List.mem_cons_self
      obtain ⟨l', rfl⟩ := ih (fun x hx => hl x (List.mem_cons_of_mem _ hx))
      exact ⟨m :: l', rfl⟩
  obtain ⟨l', hl'⟩ := this g.nodes (fun v hv => (hi.reach v hv).imp fun _ h => h.1)
  refine ⟨l', fun m hm => ?_⟩
  have := hall m hm
  rw [hl'] at this
  obtain ⟨x, hx, e⟩ := List.mem_map.1 this
  exact vec_inj e ▸ hx

/-- The graph is strongly connected if and only if every reachable marking can reach every other. -/
theorem rg_connected {N : WNet P T} (hN : Listed N) (h1000 : N.places.length ≤ 1000) {m0 : Mk P} {g : Rg P T}
    (h : RgEnds N (vec m0) g) :
    RgConnected g ↔ ∀ m m', Reaches N m0 m → Reaches N m0 m' → Reaches N m m' := by
  have hi := rg_inv hN h1000 h.1
  constructor
  · intro hc m m' hm hm'
    obtain ⟨a, ha, _⟩ := rg_reach hN h1000 h hi.init hm
    obtain ⟨b, hb, _⟩ := rg_reach hN h1000 h hi.init hm'
    have la := (List.getElem?_eq_some_iff.1 ha).1
    have lb := (List.getElem?_eq_some_iff.1 hb).1
    obtain ⟨x, hx, hr⟩ := rg_path hN h1000 h ha (hc a la b lb)
    have : m' = x := vec_inj (Option.some.inj (hb.symm.trans hx))
    rw [this]; exact hr
  · intro hc x hx y hy
    have ex : g.nodes[x]? = some g.nodes[x] := List.getElem?_eq_getElem hx
    have ey : g.nodes[y]? = some g.nodes[y] := List.getElem?_eq_getElem hy
    obtain ⟨m, e1, hm⟩ := hi.reach _ (List.getElem_mem hx)
    obtain ⟨m', e2, hm'⟩ := hi.reach _ (List.getElem_mem hy)
    rw [e1] at ex
    rw [e2] at ey
    obtain ⟨b, hb, hp⟩ := rg_reach hN h1000 h ex (hc m m' hm hm')
    have : b = y := by
      have lb := (List.getElem?_eq_some_iff.1 hb).1
      refine (List.getElem_inj (h₀ := lb) (h₁ := hy) hi.nodup).1 ?_
      rw [List.getElem?_eq_getElem lb] at hb
      rw [Option.some.inj hb, e2]
    rw [← this]; exact hp

/-! ### Termination -/

theorem rgFold_measure {N : WNet P T} (m : Nat) (todo : List (Vec P × T)) (s : Rg P T) :
    s.nodes.length + (todo.foldl (rgVisit N m) s).working.length = (todo.foldl (rgVisit N m) s).nodes.length + s.working.length := by
  induction todo generalizing s with
  | nil => simp
  | cons el todo ih =>
    simp only [List.foldl_cons]
    have := ih (rgVisit N m s el)
    have h2 : s.nodes.length + (rgVisit N m s el).working.length = (rgVisit N m s el).nodes.length + s.working.length := by
      unfold rgVisit
      split
      · rfl
      · simp; omega
    omega

theorem rgFold_nodes {N : WNet P T} (m : Nat) (todo : List (Vec P × T)) (s : Rg P T) :
    s.nodes.length ≤ (todo.foldl (rgVisit N m) s).nodes.length := by
  induction todo generalizing s with
  | nil => simp
  | cons el todo ih =>
    refine Nat.le_trans ?_ (ih _)
    unfold rgVisit
    split <;> simp

theorem nodup_length_le {α : Type} {l l' : List α} (hn : l.Nodup) (h : ∀ a ∈ l, a ∈ l') : l.length ≤ l'.length :=
  (List.subperm_of_subset hn h).length_le

theorem rg_acc {N : WNet P T} (hN : Listed N) (h1000 : N.places.length ≤ 1000) {m0 : Mk P} (hb : Bounded N m0) :
    Acc (fun s' s => RgStep N s s') (rgInit (vec m0)) := by
  obtain ⟨l, hl⟩ := hb
  have hlen : ∀ s : Rg P T, RgInv N m0 none [] s → s.nodes.length ≤ l.length := by
    intro s hi
    rw [← List.length_map (f := vec)]
    refine nodup_length_le hi.nodup fun v hv => ?_
    obtain ⟨m, rfl, hm⟩ := hi.reach v hv
    exact List.mem_map_of_mem (hl m hm)
  have key : ∀ n (s : Rg P T), RgInv N m0 none [] s → 2 * (l.length - s.nodes.length) + s.working.length ≤ n →
      Acc (fun s' s => RgStep N s s') s := by
    intro n
    induction n with
    | zero =>
      intro s _ hn
      refine Acc.intro _ fun s' hs => ?_
      obtain ⟨hm, _⟩ := hs
      have := List.length_pos_of_mem hm
      omega
    | succ n ih =>
      intro s hi hn
      refine Acc.intro _ fun s' hs => ?_
      have hi' := rgStep_inv hN h1000 hi hs
      refine ih s' hi' ?_
      have l1 := hlen s' hi'
      obtain ⟨hm, hv⟩ := hs
      rename_i m v
      have hme := rgFold_measure (N := N) m (enabledMarkings N v) { s with working := s.working.erase m }
      have hno := rgFold_nodes (N := N) m (enabledMarkings N v) { s with working := s.working.erase m }
      simp only at hme hno
      have he := List.length_erase_of_mem hm
      have hp := List.length_pos_of_mem hm
      have l0 := hlen s hi
      omega
  exact key _ _ (rgInit_inv N m0) (Nat.le_refl _)

theorem rg_ends {N : WNet P T} (hN : Listed N) (h1000 : N.places.length ≤ 1000) {m0 : Mk P} (hb : Bounded N m0) :
    ∃ g, RgEnds N (vec m0) g := by
  have key : ∀ s : Rg P T, Acc (fun s' s => RgStep N s s') s → RgInv N m0 none [] s →
      ∃ g, Relation.ReflTransGen (RgStep N) s g ∧ g.working = [] := by
    intro s ha
    induction ha with
    | intro s _ ih =>
      intro hi
      match hw : s.working with
      | [] => exact ⟨s, .refl, hw⟩
      | k :: ks =>
        have hk : k ∈ s.working := by rw [hw]; simp
        have hlt := hi.work.2 k hk
        have hs : RgStep N s _ := .mk hk (List.getElem?_eq_getElem hlt)
        obtain ⟨g, h1, h2⟩ := ih _ hs (rgStep_inv hN h1000 hi hs)
        exact ⟨g, .head hs h1, h2⟩
  exact key _ (rg_acc hN h1000 hb) (rgInit_inv N m0)

end Verif.Woflan
