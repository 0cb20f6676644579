import Verif.Murata.Spec
set_option linter.unusedSectionVars false
/-
C64: proofs.
-/
namespace Verif.Murata
variable {P T : Type}

open Classical in
/-- The weighted sum over the places outside `R` and other than `p`. -/
noncomputable def S (places R : List P) (p : P) (x : P → Int) (w : P → Int) : Int :=
  (places.map fun q => if q ∈ R ∨ q = p then 0 else w q * x q).sum

theorem S_add (places R : List P) (p : P) (x w w' : P → Int) :
    S places R p x (fun q => w q + w' q) = S places R p x w + S places R p x w' := by
  unfold S
  induction places with
  | nil => rfl
  | cons q l ih =>
    simp only [List.map_cons, List.sum_cons]
    rw [ih]
    split
    · omega
    · rw [Int.add_mul]; omega

theorem S_mono (places R : List P) (p : P) (x w w' : P → Int) (hx : ∀ q, 0 ≤ x q)
    (h : ∀ q, q ∉ R → q ≠ p → w q ≤ w' q) : S places R p x w ≤ S places R p x w' := by
  unfold S
  induction places with
  | nil => exact Int.le_refl _
  | cons q l ih =>
    simp only [List.map_cons, List.sum_cons]
    refine Int.add_le_add ?_ ih
    split
    · exact Int.le_refl _
    · rename_i hc
      simp only [not_or] at hc
      exact Int.mul_le_mul_of_nonneg_right (h q hc.1 hc.2) (hx q)

theorem S_nonneg (places R : List P) (p : P) (x w : P → Int) (hx : ∀ q, 0 ≤ x q) (hw : ∀ q, 0 ≤ w q) :
    0 ≤ S places R p x w := by
  have := S_mono places R p x (fun _ => 0) w hx (fun q _ _ => hw q)
  have h0 : S places R p x (fun _ => 0) = 0 := by
    clear this hx hw
    unfold S
    induction places with
    | nil => rfl
    | cons q l ih => simp only [List.map_cons, List.sum_cons, Int.zero_mul, ite_self] at ih ⊢; omega
  omega

open Classical in
/-- The sum with the sign of `p` turned. -/
theorem sum_sign (places R : List P) (p : P) (x w : P → Int) (hn : places.Nodup) (hp : p ∈ places) (hR : p ∉ R) :
    (places.map fun q => (if q ∈ R then 0 else if q = p then w q else -(w q)) * x q).sum =
      w p * x p - S places R p x w := by
  have out : ∀ l : List P, p ∉ l →
      (l.map fun q => (if q ∈ R then 0 else if q = p then w q else -(w q)) * x q).sum = - S l R p x w := by
    intro l hl
    unfold S
    induction l with
    | nil => rfl
    | cons q l ih =>
      simp only [List.mem_cons, not_or] at hl
      simp only [List.map_cons, List.sum_cons]
      rw [ih hl.2]
      have hq : q ≠ p := fun e => hl.1 e.symm
      by_cases h : q ∈ R
      · simp [h]
      · simp only [h, hq, if_false, or_self]
        rw [Int.neg_mul]; omega
  induction places with
  | nil => cases hp
  | cons q l ih =>
    simp only [List.nodup_cons] at hn
    simp only [List.map_cons, List.sum_cons]
    have hS : S (q :: l) R p x w = (if q ∈ R ∨ q = p then 0 else w q * x q) + S l R p x w := by
      unfold S; rw [List.map_cons, List.sum_cons]
    rw [hS]
    by_cases e : q = p
    · subst e
      rw [out l hn.1]
      simp only [hR, if_false, if_true, or_true]
      omega
    · have hp' : p ∈ l := by
        rcases List.mem_cons.1 hp with h | h
        · exact absurd h.symm e
        · exact h
      rw [ih hn.2 hp']
      by_cases h : q ∈ R
      · simp [h]
      · simp only [h, e, if_false, or_self]
        rw [Int.neg_mul]; omega

/-- What the solution of the rows for one place says. -/
def Own (N : MNet P T) (im : P → Nat) (R : List P) (p : P) : Prop :=
  ∃ (x : P → Int) (k : Int), (∀ q, 0 ≤ x q) ∧ 0 ≤ k ∧ 1 ≤ x p ∧
    (im p : Int) * x p = S N.places R p x (fun q => (im q : Int)) + k ∧
    (∀ t, (N.pre t p : Int) * x p ≤ S N.places R p x (fun q => (N.pre t q : Int)) + k) ∧
    ∀ t, S N.places R p x (fun q => (N.post t q : Int)) ≤ (N.post t p : Int) * x p

open Classical in
theorem sum_neg (places R : List P) (p : P) (x w : P → Int) :
    (places.map fun q => (if q ∈ R then 0 else if q = p then -(w q) else w q) * x q).sum =
      - (places.map fun q => (if q ∈ R then 0 else if q = p then w q else -(w q)) * x q).sum := by
  induction places with
  | nil => rfl
  | cons q l ih =>
    simp only [List.map_cons, List.sum_cons]
    rw [ih]
    by_cases h : q ∈ R
    · simp [h]
    · by_cases e : q = p
      · simp only [h, if_false]
        rw [if_pos e, if_pos e, Int.neg_mul]; omega
      · simp only [h, e, if_false]
        rw [Int.neg_mul]; omega

open Classical in
theorem sum_one (places : List P) (p : P) (x : P → Int) (hn : places.Nodup) (hp : p ∈ places) :
    (places.map fun q => (if q = p then -1 else 0) * x q).sum = - x p := by
  have out : ∀ l : List P, p ∉ l → (l.map fun q => (if q = p then -1 else 0) * x q).sum = 0 := by
    intro l hl
    induction l with
    | nil => rfl
    | cons q l ih =>
      simp only [List.mem_cons, not_or] at hl
      have hq : q ≠ p := fun e => hl.1 e.symm
      simp only [List.map_cons, List.sum_cons, hq, if_false]
      rw [ih hl.2]; omega
  induction places with
  | nil => cases hp
  | cons q l ih =>
    simp only [List.nodup_cons] at hn
    simp only [List.map_cons, List.sum_cons]
    by_cases e : q = p
    · subst e
      rw [out l hn.1]
      simp only [if_true]; omega
    · have hp' : p ∈ l := by
        rcases List.mem_cons.1 hp with h | h
        · exact absurd h.symm e
        · exact h
      rw [ih hn.2 hp']
      simp only [e, if_false]; omega

theorem own_of_success {N : MNet P T} (hN : Listed N) {im : P → Nat} {R : List P} {p : P} (hR : p ∉ R) {eqs ubs : List (Row P)}
    (h : Success N.places (eqs ++ [imRow im R p]) (ubs ++ ubRows N R p)) : Own N im R p := by
  obtain ⟨x, k, hx, hk, he, hu⟩ := h
  have hp := hN.places p
  have hu' : ∀ r ∈ ubRows N R p, r.val N.places x k ≤ r.rhs := fun r hr => hu r (List.mem_append_right _ hr)
  refine ⟨x, k, hx, hk, ?_, ?_, fun t => ?_, fun t => ?_⟩
  · have := hu' (signRow p p) (by
      unfold ubRows
      refine List.mem_append_left _ (List.mem_append_right _ (List.mem_map.2 ⟨p, ?_, rfl⟩))
      simp [hN.places p, hR])
    simp only [Row.val, signRow, if_true] at this
    rw [sum_one N.places p x hN.nodup hp] at this
    omega
  · have := he (imRow im R p) (by simp)
    simp only [Row.val, imRow] at this
    rw [sum_sign N.places R p x (fun q => (im q : Int)) hN.nodup hp hR] at this
    omega
  · have := hu' (inRow N R p t) (by
      unfold ubRows
      refine List.mem_append_left _ (List.mem_append_left _ (List.mem_append_left _ (List.mem_map.2 ⟨t, hN.trans t, rfl⟩))))
    simp only [Row.val, inRow] at this
    rw [sum_sign N.places R p x (fun q => (N.pre t q : Int)) hN.nodup hp hR] at this
    omega
  · have := hu' (outRow N R p t) (by
      unfold ubRows
      refine List.mem_append_left _ (List.mem_append_left _ (List.mem_append_right _ (List.mem_map.2 ⟨t, hN.trans t, rfl⟩))))
    simp only [Row.val, outRow] at this
    rw [sum_neg N.places R p x (fun q => (N.post t q : Int)),
      sum_sign N.places R p x (fun q => (N.post t q : Int)) hN.nodup hp hR] at this
    omega

/-- Every redundant place satisfies its own conditions with respect to the redundant places before it. -/
theorem redundant_own {N : MNet P T} (hN : Listed N) (im : P → Nat) {R rest : List P} {p : P}
    (h : redundant N im = R ++ p :: rest) : Own N im R p := by
  have key : ∀ (todo : List P) (s : St P), todo.Nodup → (∀ q ∈ s.red, q ∉ todo) →
      (∀ R p rest, s.red = R ++ p :: rest → Own N im R p) →
      ∀ R p rest, (todo.foldl (step N im) s).red = R ++ p :: rest → Own N im R p := by
    intro todo
    induction todo with
    | nil => intro s _ _ h; exact h
    | cons q todo ih =>
      intro s hn hd h
      simp only [List.nodup_cons] at hn
      rw [List.foldl_cons]
      refine ih _ hn.2 ?_ ?_
      · intro a ha
        simp only [step] at ha
        split at ha
        · simp only [List.mem_append, List.mem_singleton] at ha
          rcases ha with ha | rfl
          · exact fun hc => hd a ha (List.mem_cons_of_mem _ hc)
          · exact hn.1
        · exact fun hc => hd a ha (List.mem_cons_of_mem _ hc)
      · intro R p rest e
        simp only [step] at e
        split at e
        · rename_i hs
          rcases List.eq_nil_or_concat rest with rfl | ⟨r', a, rfl⟩
          · obtain ⟨h1, h2⟩ := List.append_inj' e rfl
            cases h2
            subst h1
            exact own_of_success hN (fun hc => hd _ hc List.mem_cons_self) hs
          · rw [List.concat_eq_append, ← List.cons_append, ← List.append_assoc] at e
            obtain ⟨h1, _⟩ := List.append_inj' e rfl
            exact h R p r' h1
        · exact h R p rest e
  exact key N.places ⟨[], [], []⟩ hN.nodup (by simp) (by simp) R p rest h

/-- The invariant of the markings for the removed places. -/
def Inv (N : MNet P T) (red : List P) (Q : P → Prop) (m : P → Nat) : Prop :=
  ∀ R p rest, red = R ++ p :: rest → Q p → ∃ x : P → Int, (∀ q, 0 ≤ x q) ∧ 1 ≤ x p ∧
    (∀ t, (N.pre t p : Int) * x p ≤ S N.places R p x (fun q => (N.pre t q : Int))) ∧
    (∀ t, S N.places R p x (fun q => (N.post t q : Int)) ≤ (N.post t p : Int) * x p) ∧
    S N.places R p x (fun q => (m q : Int)) ≤ (m p : Int) * x p

theorem inv_init {N : MNet P T} (hN : Listed N) {im : P → Nat} {Q : P → Prop} (hQ : ∀ p, Q p → im p = 0) :
    Inv N (redundant N im) Q im := by
  intro R p rest e hp
  obtain ⟨x, k, hx, hk, h1, h2, h3, h4⟩ := redundant_own hN im e
  rw [hQ p hp] at h2
  have hS := S_nonneg N.places R p x (fun q => (im q : Int)) hx (fun q => Int.natCast_nonneg _)
  have hk0 : k = 0 := by
    rw [show ((0 : Nat) : Int) * x p = 0 from Int.zero_mul _] at h2
    omega
  subst hk0
  refine ⟨x, hx, h1, fun t => by have := h3 t; omega, h4, ?_⟩
  rw [hQ p hp]
  omega

theorem inv_fires {N : MNet P T} (hN : Listed N) {red : List P} {Q : P → Prop} {m m' : P → Nat} {t : T} (h : Inv N red Q m)
    (hf : Fires N m t m') : Inv N red Q m' := by
  intro R p rest e hp
  obtain ⟨x, hx, h1, h2, h3, h4⟩ := h R p rest e hp
  refine ⟨x, hx, h1, h2, h3, ?_⟩
  have hm : ∀ q, (m' q : Int) + (N.pre t q : Int) = (m q : Int) + (N.post t q : Int) := by
    intro q
    have := hf.1 q (hN.places q)
    have := hf.2 q
    omega
  have a1 := S_add N.places R p x (fun q => (m' q : Int)) (fun q => (N.pre t q : Int))
  have a2 := S_add N.places R p x (fun q => (m q : Int)) (fun q => (N.post t q : Int))
  rw [show (fun q => (m' q : Int) + (N.pre t q : Int)) = fun q => (m q : Int) + (N.post t q : Int) from funext hm] at a1
  have b := congrArg (· * x p) (hm p)
  simp only [Int.add_mul] at b
  have := h2 t
  have := h3 t
  omega

/-- A transition that is enabled on the places that are kept is enabled. -/
theorem inv_enabled {N : MNet P T} {red : List P} {Q : P → Prop} {m : P → Nat} {t : T} (h : Inv N red Q m)
    (hQ : ∀ p, Q p → p ∈ red) (hk : ∀ p, ¬ Q p → N.pre t p ≤ m p) : ∀ p, N.pre t p ≤ m p := by
  have key : ∀ (n : Nat) (R : List P) (p : P) (rest : List P), rest.length ≤ n → red = R ++ p :: rest → N.pre t p ≤ m p := by
    intro n
    induction n with
    | zero =>
      intro R p rest hn e
      by_cases hp : Q p
      · obtain ⟨x, hx, h1, h2, h3, h4⟩ := h R p rest e hp
        have hmono := S_mono N.places R p x (fun q => (N.pre t q : Int)) (fun q => (m q : Int)) hx (by
          intro q hqR hqp
          by_cases hq : Q q
          · have := hQ q hq
            rw [e] at this
            simp only [List.mem_append, List.mem_cons] at this
            rcases this with h | h | h
            · exact absurd h hqR
            · exact absurd h hqp
            · have : rest = [] := List.length_eq_zero_iff.1 (by omega)
              rw [this] at h; cases h
          · exact Int.ofNat_le.2 (hk q hq))
        have := h2 t
        have h5 : (N.pre t p : Int) * x p ≤ (m p : Int) * x p := by omega
        exact Int.ofNat_le.1 (Int.le_of_mul_le_mul_right h5 (by omega))
      · exact hk p hp
    | succ n ih =>
      intro R p rest hn e
      by_cases hp : Q p
      · obtain ⟨x, hx, h1, h2, h3, h4⟩ := h R p rest e hp
        have hmono := S_mono N.places R p x (fun q => (N.pre t q : Int)) (fun q => (m q : Int)) hx (by
          intro q hqR hqp
          by_cases hq : Q q
          · have := hQ q hq
            rw [e] at this
            simp only [List.mem_append, List.mem_cons] at this
            rcases this with h | h | h
            · exact absurd h hqR
            · exact absurd h hqp
            · obtain ⟨r1, r2, hr⟩ := List.append_of_mem h
              refine Int.ofNat_le.2 (ih (R ++ p :: r1) q r2 ?_ ?_)
              · rw [hr] at hn
                simp only [List.length_append, List.length_cons] at hn
                omega
              · rw [e, hr]; simp
          · exact Int.ofNat_le.2 (hk q hq))
        have := h2 t
        have h5 : (N.pre t p : Int) * x p ≤ (m p : Int) * x p := by omega
        exact Int.ofNat_le.1 (Int.le_of_mul_le_mul_right h5 (by omega))
      · exact hk p hp
  intro p
  by_cases hp : Q p
  · obtain ⟨R, rest, e⟩ := List.append_of_mem (hQ p hp)
    exact key _ R p rest (Nat.le_refl _) e
  · exact hk p hp

open Classical in
theorem mem_reduce {N : MNet P T} (hN : Listed N) {im fm : P → Nat} {p : P} : p ∈ (reduceNet N im fm).places ↔ ¬ Removed N im fm p := by
  simp [reduceNet, hN.places p]

open Classical in
/-- A run of the net is a run of the reduced net. -/
theorem run_forward {N : MNet P T} (hN : Listed N) {im fm : P → Nat} {m0 m0' m : P → Nat} {s : List T} (hr : Run N m0 s m)
    (ha : ∀ p, m0' p = if Removed N im fm p then 0 else m0 p) :
    Run (reduceNet N im fm) m0' s (fun p => if Removed N im fm p then 0 else m p) := by
  induction hr generalizing m0' with
  | nil =>
    rename_i m
    have : m0' = fun p => if Removed N im fm p then 0 else m p := funext ha
    rw [this]; exact .nil
  | @cons m t m1 s m2 hf _ ih =>
    refine .cons (m' := fun p => if Removed N im fm p then 0 else m1 p) ⟨?_, ?_⟩ (ih fun p => rfl)
    · intro p hp
      have hp' := (mem_reduce hN).1 hp
      rw [ha p]
      simp only [reduceNet, hp', if_false]
      exact hf.1 p (hN.places p)
    · intro p
      simp only [reduceNet]
      rw [ha p]
      split
      · rfl
      · exact hf.2 p

/-- A run of the reduced net comes from a run of the net. -/
theorem run_backward {N : MNet P T} (hN : Listed N) {im fm : P → Nat} {m0 m0' m' : P → Nat}
    {s : List T} (hi : Inv N (redundant N im) (Removed N im fm) m0) (hr : Run (reduceNet N im fm) m0' s m')
    (ha : ∀ p, ¬ Removed N im fm p → m0' p = m0 p) :
    ∃ m, Run N m0 s m ∧ ∀ p, ¬ Removed N im fm p → m' p = m p := by
  induction hr generalizing m0 with
  | nil => exact ⟨m0, .nil, ha⟩
  | @cons a t b s c hf _ ih =>
    have hen : ∀ p, N.pre t p ≤ m0 p := inv_enabled hi (fun p hp => hp.1) (fun p hp => by
      have := hf.1 p ((mem_reduce hN).2 hp)
      simp only [reduceNet, hp, if_false] at this
      rw [ha p hp] at this
      exact this)
    have hf' : Fires N m0 t (fun p => m0 p - N.pre t p + N.post t p) := ⟨fun p _ => hen p, fun p => rfl⟩
    obtain ⟨m, hm, ha'⟩ := ih (inv_fires hN hi hf') (fun p hp => by
      have := hf.2 p
      simp only [reduceNet, hp, if_false] at this
      rw [this, ha p hp])
    exact ⟨m, .cons hf' hm, ha'⟩

end Verif.Murata
