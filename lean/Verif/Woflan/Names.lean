import Verif.Woflan.Short
set_option linter.unusedSectionVars false
/-
C63: the test whether the net is a workflow net.
-/
namespace Verif.Woflan
variable {P T : Type}

theorem noIn_iff {N : WNet P T} (hN : Listed N) (p : P) : NoIn N p ↔ ∀ x, ¬ Arc N x (.inl p) := by
  constructor
  · intro h x hx
    generalize e : (Sum.inl p : P ⊕ T) = y at hx
    cases hx with
    | inp => cases e
    | out ha => cases e; exact h _ (hN.trans _) _ ha rfl
  · rintro h t _ a ha rfl
    exact h _ (.out ha)

theorem noOut_iff {N : WNet P T} (hN : Listed N) (p : P) : NoOut N p ↔ ∀ x, ¬ Arc N (.inl p) x := by
  constructor
  · intro h x hx
    generalize e : (Sum.inl p : P ⊕ T) = y at hx
    cases hx with
    | out => cases e
    | inp ha => cases e; exact h _ (hN.trans _) _ ha rfl
  · rintro h t _ a ha rfl
    exact h _ (.inp ha)

theorem single_list {α : Type} {l : List α} (hn : l.Nodup) {i : α} (h : ∀ p, p ∈ l ↔ p = i) : l = [i] := by
  match l, hn with
  | [], _ => have := (h i).2 rfl; cases this
  | [x], _ => have := (h x).1 (by simp); rw [this]
  | x :: y :: l, hn =>
    have h1 := (h x).1 (by simp)
    have h2 := (h y).1 (by simp)
    simp [h1, h2] at hn

theorem sourceSink_iff {N : WNet P T} (hN : Listed N) {i o : P} : sourceSink N = some (i, o) ↔
    (∀ p, (∀ x, ¬ Arc N x (.inl p)) ↔ p = i) ∧ (∀ p, (∀ x, ¬ Arc N (.inl p) x) ↔ p = o) := by
  classical
  constructor
  · intro h
    unfold sourceSink at h
    split at h
    · rename_i a b h1 h2
      cases h
      constructor
      · intro p
        rw [← noIn_iff hN]
        have : p ∈ N.places.filter (fun p => decide (NoIn N p)) ↔ p ∈ [i] := by rw [← h1]
        simpa [hN.places p] using this
      · intro p
        rw [← noOut_iff hN]
        have : p ∈ N.places.filter (fun p => decide (NoOut N p)) ↔ p ∈ [o] := by rw [← h2]
        simpa [hN.places p] using this
    · cases h
  · rintro ⟨h1, h2⟩
    unfold sourceSink
    have e1 : N.places.filter (fun p => decide (NoIn N p)) = [i] := by
      refine single_list (hN.nodup.filter _) fun p => ?_
      rw [← h1, ← noIn_iff hN]; simp [hN.places p]
    have e2 : N.places.filter (fun p => decide (NoOut N p)) = [o] := by
      refine single_list (hN.nodup.filter _) fun p => ?_
      rw [← h2, ← noOut_iff hN]; simp [hN.places p]
    have e1' := e1
    have e2' := e2
    rw [show (fun p => decide (NoIn N p)) = (fun p => @decide (NoIn N p) (Classical.propDecidable _)) from by
      funext p; congr] at e1'
    rw [show (fun p => decide (NoOut N p)) = (fun p => @decide (NoOut N p) (Classical.propDecidable _)) from by
      funext p; congr] at e2'
    rw [e1', e2']

/-- A node of the net in the short-circuited net. -/
def emb : P ⊕ T → P ⊕ Option T
  | .inl p => .inl p
  | .inr t => .inr (some t)

theorem emb_inj {x y : P ⊕ T} (h : emb x = emb y) : x = y := by
  cases x <;> cases y <;> simp_all [emb]

theorem arc_short {N : WNet P T} {i o : P} {x y : P ⊕ Option T} : Arc (shortCircuit N i o) x y ↔
    (x = .inl o ∧ y = .inr none) ∨ (x = .inr none ∧ y = .inl i) ∨ ∃ a b, x = emb a ∧ y = emb b ∧ Arc N a b := by
  constructor
  · intro h
    cases h with
    | @inp t a ha =>
      cases t with
      | none =>
        simp only [shortCircuit, List.mem_singleton] at ha
        subst ha
        exact .inl ⟨rfl, rfl⟩
      | some t => exact .inr (.inr ⟨.inl a.1, .inr t, rfl, rfl, .inp ha⟩)
    | @out t a ha =>
      cases t with
      | none =>
        simp only [shortCircuit, List.mem_singleton] at ha
        subst ha
        exact .inr (.inl ⟨rfl, rfl⟩)
      | some t => exact .inr (.inr ⟨.inr t, .inl a.1, rfl, rfl, .out ha⟩)
  · rintro (⟨rfl, rfl⟩ | ⟨rfl, rfl⟩ | ⟨a, b, rfl, rfl, h⟩)
    · exact Arc.inp (N := shortCircuit N i o) (t := none) (a := (o, 1)) (by simp [shortCircuit])
    · exact Arc.out (N := shortCircuit N i o) (t := none) (a := (i, 1)) (by simp [shortCircuit])
    · cases h with
      | inp ha => exact Arc.inp (N := shortCircuit N i o) (t := some _) ha
      | out ha => exact Arc.out (N := shortCircuit N i o) (t := some _) ha

theorem nameEdge_iff {N : WNet P T} (hN : Listed N) {a b : String} :
    NameEdge N a b ↔ ∃ x y, Arc N x y ∧ a = nodeName N x ∧ b = nodeName N y := by
  constructor
  · rintro ⟨t, _, ⟨e, he, h1, h2⟩ | ⟨e, he, h1, h2⟩⟩
    · exact ⟨_, _, .inp he, h1, h2⟩
    · exact ⟨_, _, .out he, h1, h2⟩
  · rintro ⟨x, y, h, h1, h2⟩
    cases h with
    | inp he => exact ⟨_, hN.trans _, .inl ⟨_, he, h1, h2⟩⟩
    | out he => exact ⟨_, hN.trans _, .inr ⟨_, he, h1, h2⟩⟩

theorem namesConnected_iff {N : WNet P T} (hN : Listed N) (hd : ∀ x y, nodeName N x = nodeName N y → x = y) :
    NamesConnected N ↔ ∀ x y, Relation.ReflTransGen (Arc N) x y := by
  have hmem : ∀ x : P ⊕ T, nodeName N x ∈ N.places.map N.pname ++ N.trans.map N.tname := by
    intro x
    cases x with
    | inl p => exact List.mem_append_left _ (List.mem_map_of_mem (hN.places p))
    | inr t => exact List.mem_append_right _ (List.mem_map_of_mem (hN.trans t))
  have hmem' : ∀ a ∈ N.places.map N.pname ++ N.trans.map N.tname, ∃ x : P ⊕ T, nodeName N x = a := by
    intro a ha
    simp only [List.mem_append, List.mem_map] at ha
    rcases ha with ⟨p, _, rfl⟩ | ⟨t, _, rfl⟩
    · exact ⟨.inl p, rfl⟩
    · exact ⟨.inr t, rfl⟩
  constructor
  · intro h x y
    have lift : ∀ b, Relation.ReflTransGen (NameEdge N) (nodeName N x) b →
        ∃ y, nodeName N y = b ∧ Relation.ReflTransGen (Arc N) x y := by
      intro b hb
      induction hb with
      | refl => exact ⟨x, rfl, .refl⟩
      | tail _ e ih =>
        obtain ⟨y, rfl, hp⟩ := ih
        obtain ⟨u, v, ha, h1, h2⟩ := (nameEdge_iff hN).1 e
        rw [hd _ _ h1] at hp
        exact ⟨v, h2.symm, .tail hp ha⟩
    obtain ⟨z, hz, hp⟩ := lift _ (h _ (hmem x) _ (hmem y))
    exact hd _ _ hz ▸ hp
  · intro h a ha b hb
    obtain ⟨x, rfl⟩ := hmem' a ha
    obtain ⟨y, rfl⟩ := hmem' b hb
    have := h x y
    induction this with
    | refl => exact .refl
    | @tail u v _ e ih =>
      exact .tail (ih (hmem u)) ((nameEdge_iff hN).2 ⟨u, v, e, rfl, rfl⟩)

theorem distinct_short {N : WNet P T} (hd : DistinctNames N) (i o : P) :
    ∀ x y, nodeName (shortCircuit N i o) x = nodeName (shortCircuit N i o) y → x = y := by
  have key : ∀ x : P ⊕ T, nodeName (shortCircuit N i o) (emb x) = nodeName N x := by
    intro x; cases x <;> rfl
  have cases' : ∀ x : P ⊕ Option T, x = .inr none ∨ ∃ a, x = emb a := by
    intro x
    match x with
    | .inl p => exact .inr ⟨.inl p, rfl⟩
    | .inr none => exact .inl rfl
    | .inr (some t) => exact .inr ⟨.inr t, rfl⟩
  intro x y h
  rcases cases' x with rfl | ⟨a, rfl⟩ <;> rcases cases' y with rfl | ⟨b, rfl⟩
  · rfl
  · rw [key] at h
    exact absurd h.symm (hd.other b)
  · rw [key] at h
    exact absurd h (hd.other a)
  · rw [key, key] at h
    rw [hd.inj a b h]

theorem connected_between {N : WNet P T} {i o : P} :
    (∀ x y, Relation.ReflTransGen (Arc (shortCircuit N i o)) x y) ↔
    ∀ x, Relation.ReflTransGen (Arc N) (.inl i) x ∧ Relation.ReflTransGen (Arc N) x (.inl o) := by
  constructor
  · intro h x
    constructor
    · have : ∀ y, Relation.ReflTransGen (Arc (shortCircuit N i o)) (.inl i) y → ∀ x, y = emb x →
          Relation.ReflTransGen (Arc N) (.inl i) x := by
        intro y hy
        induction hy with
        | refl =>
          intro x e
          cases x with
          | inl p => cases e; exact .refl
          | inr t => cases e
        | tail _ e ih =>
          intro x hx
          subst hx
          rcases arc_short.1 e with ⟨_, h⟩ | ⟨_, h⟩ | ⟨a, b, rfl, h2, h3⟩
          · cases x <;> cases h
          · cases x with
            | inl p => cases h; exact .refl
            | inr t => cases h
          · rw [emb_inj h2]
            exact .tail (ih a rfl) h3
      exact this _ (h _ _) x rfl
    · have : ∀ y, Relation.ReflTransGen (Arc (shortCircuit N i o)) y (.inl o) → ∀ x, y = emb x →
          Relation.ReflTransGen (Arc N) x (.inl o) := by
        intro y hy
        induction hy using Relation.ReflTransGen.head_induction_on with
        | refl =>
          intro x e
          cases x with
          | inl p => cases e; exact .refl
          | inr t => cases e
        | head e _ ih =>
          intro x hx
          subst hx
          rcases arc_short.1 e with ⟨h, _⟩ | ⟨h, _⟩ | ⟨a, b, h1, rfl, h3⟩
          · cases x with
            | inl p => cases h; exact .refl
            | inr t => cases h
          · cases x <;> cases h
          · rw [emb_inj h1]
            exact .head h3 (ih b rfl)
      exact this _ (h (emb x) _) x rfl
  · intro h
    have up : ∀ a b : P ⊕ T, Relation.ReflTransGen (Arc N) a b → Relation.ReflTransGen (Arc (shortCircuit N i o)) (emb a) (emb b) := by
      intro a b hab
      induction hab with
      | refl => exact .refl
      | tail _ e ih => exact .tail ih (arc_short.2 (.inr (.inr ⟨_, _, rfl, rfl, e⟩)))
    have toN : ∀ x : P ⊕ Option T, Relation.ReflTransGen (Arc (shortCircuit N i o)) x (.inr none) := by
      intro x
      have last : ∀ a : P ⊕ T, Relation.ReflTransGen (Arc (shortCircuit N i o)) (emb a) (.inr none) :=
        fun a => .tail (up a _ (h a).2) (arc_short.2 (.inl ⟨rfl, rfl⟩))
      match x with
      | .inl p => exact last (.inl p)
      | .inr none => exact .refl
      | .inr (some t) => exact last (.inr t)
    have fromN : ∀ x : P ⊕ Option T, Relation.ReflTransGen (Arc (shortCircuit N i o)) (.inr none) x := by
      intro x
      have first : ∀ a : P ⊕ T, Relation.ReflTransGen (Arc (shortCircuit N i o)) (.inr none) (emb a) :=
        fun a => .head (arc_short.2 (.inr (.inl ⟨rfl, rfl⟩))) (up _ a (h a).1)
      match x with
      | .inl p => exact first (.inl p)
      | .inr none => exact .refl
      | .inr (some t) => exact first (.inr t)
    exact fun x y => (toN x).trans (fromN y)

/-- Steps 1 and 2 find out whether the net is a workflow net. -/
theorem wf_iff {N : WNet P T} (hN : Listed N) (hd : DistinctNames N) {i o : P} :
    (sourceSink N = some (i, o) ∧ NamesConnected (shortCircuit N i o)) ↔ IsWorkflowNet N i o := by
  rw [sourceSink_iff hN, namesConnected_iff (listed_short hN i o) (distinct_short hd i o), connected_between]
  exact ⟨fun h => ⟨h.1.1, h.1.2, h.2⟩, fun h => ⟨⟨h.1, h.2⟩, h.3⟩⟩

theorem convert_single {N : WNet P T} (hd : DistinctNames N) (i o p : P) (k : Int) :
    convertMarking (shortCircuit N i o) [(p, k)] = vec (single p) := by
  funext q
  unfold convertMarking vec single
  simp only [List.map_cons, List.map_nil, List.mem_singleton]
  by_cases e : q = p
  · subst e; simp
  · rw [if_neg, if_neg e]
    · rfl
    · intro h
      have := hd.inj (.inl q) (.inl p) h
      cases this
      exact e rfl

end Verif.Woflan
