import Verif.Murata.Proofs
set_option linter.unusedSectionVars false
/-
C64: what removing implicit places does to the runs and the language of a net.
-/
namespace Verif.Murata
variable {P T : Type}

/-- The reduced net can do everything the net can do: a firing sequence of the net is one of the reduced net, and the markings
    agree on the places that are left. -/
theorem _root_.Verif.C64_forward {N : MNet P T} (hN : Listed N) (im fm : P → Nat) {s : List T} {m : P → Nat}
    (h : Run N im s m) : ∃ m', Run (reduceNet N im fm) (reduceIm N im fm) s m' ∧ Agree (reduceNet N im fm) m' m := by
  classical
  refine ⟨_, run_forward hN h fun p => ?_, fun p hp => ?_⟩
  · unfold reduceIm
    by_cases h : Removed N im fm p <;> simp [h]
  · have := (mem_reduce hN).1 hp
    simp [this]

/-- If no place that is removed is marked initially, the reduced net can do nothing else: a firing sequence of the reduced net
    is one of the net. -/
theorem _root_.Verif.C64_backward {N : MNet P T} (hN : Listed N) (im fm : P → Nat)
    (h0 : ∀ p, p ∉ (reduceNet N im fm).places → im p = 0) {s : List T} {m' : P → Nat}
    (h : Run (reduceNet N im fm) (reduceIm N im fm) s m') : ∃ m, Run N im s m ∧ Agree (reduceNet N im fm) m' m := by
  classical
  have hQ : ∀ p, Removed N im fm p → im p = 0 := fun p hp => h0 p (fun hc => (mem_reduce hN).1 hc hp)
  obtain ⟨m, hm, ha⟩ := run_backward hN (inv_init hN hQ) h (fun p hp => by simp [reduceIm, hp])
  exact ⟨m, hm, fun p hp => ha p ((mem_reduce hN).1 hp)⟩

/-- The language can only grow. -/
theorem _root_.Verif.C64_language_grows {N : MNet P T} (hN : Listed N) (im fm : P → Nat) {s : List T} (h : Lang N im fm s) :
    Lang (reduceNet N im fm) (reduceIm N im fm) fm s := by
  classical
  have := run_forward (im := im) (fm := fm) (m0' := reduceIm N im fm) hN h (fun p => by
    unfold reduceIm
    by_cases h : Removed N im fm p <;> simp [h])
  have e : (fun p => if Removed N im fm p then 0 else fm p) = fm := by
    funext p
    split
    · rename_i hp; exact hp.2.symm
    · rfl
  rw [e] at this
  exact this

/-- The language stays the same if no removed place is marked initially and, in the net, a marking that has the tokens of the
    final marking on the places that are left has no others. -/
theorem _root_.Verif.C64_language {N : MNet P T} (hN : Listed N) (im fm : P → Nat)
    (h0 : ∀ p, p ∉ (reduceNet N im fm).places → im p = 0)
    (hproper : ∀ s m, Run N im s m → Agree (reduceNet N im fm) m fm → m = fm) (s : List T) :
    Lang (reduceNet N im fm) (reduceIm N im fm) fm s ↔ Lang N im fm s := by
  constructor
  · intro h
    obtain ⟨m, hm, ha⟩ := Verif.C64_backward hN im fm h0 h
    have := hproper s m hm (fun p hp => (ha p hp).symm)
    exact this ▸ hm
  · exact Verif.C64_language_grows hN im fm

/-- Places of the final marking are kept, and no place is changed that is kept. -/
theorem _root_.Verif.C64_kept {N : MNet P T} (hN : Listed N) (im fm : P → Nat) :
    (∀ p, fm p ≠ 0 → p ∈ (reduceNet N im fm).places) ∧ (reduceNet N im fm).trans = N.trans ∧
    ∀ p ∈ (reduceNet N im fm).places, reduceIm N im fm p = im p ∧
      ∀ t, (reduceNet N im fm).pre t p = N.pre t p ∧ (reduceNet N im fm).post t p = N.post t p := by
  classical
  refine ⟨fun p hp => (mem_reduce hN).2 fun hc => hp hc.2, rfl, fun p hp => ?_⟩
  have := (mem_reduce hN).1 hp
  simp [reduceIm, reduceNet, this]

theorem success_mono {places : List P} {eqs ubs eqs' ubs' : List (Row P)} (h : Success places (eqs ++ eqs') (ubs ++ ubs')) :
    Success places eqs ubs := by
  obtain ⟨x, k, hx, hk, h1, h2⟩ := h
  exact ⟨x, k, hx, hk, fun r hr => h1 r (List.mem_append_left _ hr), fun r hr => h2 r (List.mem_append_left _ hr)⟩

/-- The redundant places are the first ones in the order of names. -/
theorem redundant_take (N : MNet P T) (im : P → Nat) : ∃ k, redundant N im = N.places.take k := by
  have key : ∀ (todo done : List P) (s : St P),
      (s.red = done ∨ (¬ Success N.places s.eqs s.ubs ∧ ∃ k, s.red = done.take k ∧ k ≤ done.length)) →
      ∃ k, (todo.foldl (step N im) s).red = (done ++ todo).take k := by
    intro todo
    induction todo with
    | nil =>
      intro done s h
      rcases h with h | ⟨_, k, h, _⟩
      · exact ⟨done.length, by simp [h]⟩
      · exact ⟨k, by simpa using h⟩
    | cons p todo ih =>
      intro done s h
      rw [List.foldl_cons]
      have e : done ++ p :: todo = (done ++ [p]) ++ todo := by simp
      rw [e]
      refine ih (done ++ [p]) _ ?_
      by_cases hs : Success N.places (s.eqs ++ [imRow im s.red p]) (s.ubs ++ ubRows N s.red p)
      · rcases h with h | ⟨h, _⟩
        · left
          simp only [step, hs, if_true]
          rw [h]
        · exact absurd (success_mono hs) h
      · right
        refine ⟨by simpa only [step] using hs, ?_⟩
        simp only [step, hs, if_false]
        rcases h with h | ⟨_, k, h, hk⟩
        · exact ⟨done.length, by rw [h]; simp, by simp⟩
        · exact ⟨k, by rw [h, List.take_append_of_le_length hk], by simp; omega⟩
  obtain ⟨k, hk⟩ := key N.places [] ⟨[], [], []⟩ (.inl rfl)
  exact ⟨k, by simpa [redundant] using hk⟩

/-- The rows are kept from one place to the next, so a place that is not removable keeps all later ones from being removed. -/
theorem _root_.Verif.C64_prefix {N : MNet P T} (hN : Listed N) (im fm : P → Nat) {a b : List P} {p : P}
    (h : N.places = a ++ p :: b) (hp : p ∈ (reduceNet N im fm).places) (hf : fm p = 0) :
    ∀ q ∈ b, q ∈ (reduceNet N im fm).places := by
  intro q hq
  refine (mem_reduce hN).2 fun hc => ?_
  obtain ⟨k, hk⟩ := redundant_take N im
  have hpr : p ∉ redundant N im := fun hpr => (mem_reduce hN).1 hp ⟨hpr, hf⟩
  have hka : k ≤ a.length := by
    apply Classical.byContradiction
    intro hgt
    apply hpr
    rw [hk, h, List.take_append, List.mem_append]
    right
    have : k - a.length = (k - a.length - 1) + 1 := by omega
    rw [this, List.take_succ_cons]
    simp
  have hqa : q ∈ a := by
    have := hc.1
    rw [hk, h, List.take_append_of_le_length hka] at this
    exact List.mem_of_mem_take this
  have := hN.nodup
  rw [h, List.nodup_append] at this
  exact this.2.2 q hqa q (List.mem_cons_of_mem _ hq) rfl

end Verif.Murata
