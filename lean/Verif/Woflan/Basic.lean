import Verif.Woflan.Spec
set_option linter.unusedSectionVars false
/-
C63: vectors and markings; monotonicity; boundedness.
-/
namespace Verif.Woflan
variable {P T : Type}

/-- The array of a marking. -/
def vec (m : Mk P) : Vec P := fun p => ((m p : Int) : WithTop Int)

theorem vec_inj {m n : Mk P} (h : vec m = vec n) : m = n := by
  funext p
  have := congrFun h p
  simp only [vec] at this
  exact_mod_cast WithTop.coe_injective this

theorem vec_le {m n : Mk P} : vec m ≤ vec n ↔ m ≤ n := by
  constructor
  · intro h p
    have := h p
    simp only [vec] at this
    exact_mod_cast WithTop.coe_le_coe.1 this
  · intro h p
    simp only [vec]
    exact WithTop.coe_le_coe.2 (by exact_mod_cast h p)

theorem meets_vec {N : WNet P T} {m : Mk P} {t : T} : Meets N (vec m) t ↔ Enabled N m t := by
  unfold Meets Enabled vec
  refine forall_congr' fun p => ?_
  rw [WithTop.coe_le_coe]
  exact_mod_cast Iff.rfl

theorem plus_vec {N : WNet P T} {m : Mk P} {t : T} (h : Enabled N m t) :
    plus N (vec m) t = vec (fun p => m p - pre N t p + post N t p) := by
  funext p
  simp only [plus, vec]
  rw [← WithTop.coe_add]
  congr 1
  have := h p
  unfold inc
  omega

theorem mem_enabled {N : WNet P T} (hN : Listed N) {m : Mk P} {v : Vec P} {t : T} :
    (v, t) ∈ enabledMarkings N (vec m) ↔ ∃ m', v = vec m' ∧ Fires N m t m' := by
  unfold enabledMarkings
  simp only [List.mem_map, List.mem_filter, decide_eq_true_eq, Prod.mk.injEq]
  constructor
  · rintro ⟨t', ⟨_, h⟩, rfl, rfl⟩
    rw [meets_vec] at h
    exact ⟨_, plus_vec h, h, fun p => rfl⟩
  · rintro ⟨m', rfl, h, h'⟩
    refine ⟨t, ⟨hN.trans t, meets_vec.2 h⟩, ?_, rfl⟩
    rw [plus_vec h]
    congr 1
    funext p
    rw [h' p]

theorem key_inj {N : WNet P T} (hN : Listed N) (h1000 : N.places.length ≤ 1000) {v w : Vec P} (h : key N v = key N w) :
    v = w := by
  unfold key at h
  rw [if_pos h1000, if_pos h1000] at h
  funext p
  exact List.map_inj_left.1 h p (hN.places p)

theorem fires_mono {N : WNet P T} {m m' d : Mk P} {t : T} (h : Fires N m t m') : Fires N (m + d) t (m' + d) := by
  refine ⟨fun p => Nat.le_trans (h.1 p) (Nat.le_add_right _ _), fun p => ?_⟩
  have := h.1 p
  have := h.2 p
  simp only [Pi.add_apply]
  omega

theorem reaches_mono {N : WNet P T} {m m' : Mk P} (d : Mk P) (h : Reaches N m m') : Reaches N (m + d) (m' + d) := by
  induction h with
  | refl => exact .refl
  | tail _ e ih =>
    obtain ⟨t, ht⟩ := e
    exact .tail ih ⟨t, fires_mono ht⟩

theorem Reaches.trans {N : WNet P T} {a b c : Mk P} (h1 : Reaches N a b) (h2 : Reaches N b c) : Reaches N a c :=
  Relation.ReflTransGen.trans h1 h2

/-- Finitely many markings can be reached. -/
def Bounded (N : WNet P T) (m0 : Mk P) : Prop := ∃ l : List (Mk P), ∀ m, Reaches N m0 m → m ∈ l

theorem reaches_pump {N : WNet P T} {m d : Mk P} (h : Reaches N m (m + d)) (k : Nat) :
    Reaches N m (m + fun q => k * d q) := by
  induction k with
  | zero =>
    have e : (m + fun q => 0 * d q) = m := by funext p; simp
    rw [e]
    exact .refl
  | succ k ih =>
    have := reaches_mono (fun q => k * d q) h
    have e : (m + d + fun q => k * d q) = m + fun q => (k + 1) * d q := by
      funext p
      simp only [Pi.add_apply]
      rw [Nat.add_mul]; omega
    rw [e] at this
    exact ih.trans this

/-- In a bounded net a marking that is reached from a smaller one is equal to it. -/
theorem bounded_eq {N : WNet P T} {m0 m m' : Mk P} (hb : Bounded N m0) (h0 : Reaches N m0 m) (h : Reaches N m m')
    (hle : m ≤ m') : m = m' := by
  obtain ⟨l, hl⟩ := hb
  by_contra hne
  have : ∃ p, m p < m' p := by
    by_contra hc
    simp only [not_exists, Nat.not_lt] at hc
    exact hne (funext fun p => Nat.le_antisymm (hle p) (hc p))
  obtain ⟨p, hp⟩ := this
  have e : m' = m + (fun q => m' q - m q) := by
    funext q
    have h3 : m q ≤ m' q := hle q
    simp only [Pi.add_apply]
    omega
  rw [e] at h
  have hall : ∀ k, (m + fun q => k * (m' q - m q)) ∈ l := fun k => hl _ (h0.trans (reaches_pump h k))
  -- the numbers of tokens on `p` are bounded by the sum over the list
  have hs : ∀ (l : List (Mk P)) (x : Mk P), x ∈ l → x p ≤ (l.map (· p)).sum := by
    intro l x hx
    induction l with
    | nil => cases hx
    | cons y l ih =>
      rcases List.mem_cons.1 hx with rfl | hx
      · simp
      · have := ih hx
        simp only [List.map_cons, List.sum_cons]
        omega
  have := hs l _ (hall ((l.map (· p)).sum + 1))
  simp only [Pi.add_apply] at this
  have h1 : 1 ≤ m' p - m p := by omega
  have := Nat.mul_le_mul_left ((l.map (· p)).sum + 1) h1
  omega

end Verif.Woflan
