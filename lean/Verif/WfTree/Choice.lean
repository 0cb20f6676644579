import Verif.WfTree.Sem
/-
C53: two transitions with the same input and output places can be replaced by one transition with the union of the languages.
-/
set_option linter.unusedSectionVars false
namespace Verif.WfTree
open Classical
variable {α : Type}

/-- the same transitions run, except `t1` and `t2` -/
def Oth (t1 t2 : Nat) (R R' : Nat → Option (List α)) : Prop := ∀ x, x ≠ t1 → x ≠ t2 → R x = R' x

theorem Oth.refl (t1 t2 : Nat) (R : Nat → Option (List α)) : Oth t1 t2 R R := fun _ _ _ => rfl
theorem Oth.symm {t1 t2 : Nat} {R R' : Nat → Option (List α)} (h : Oth t1 t2 R R') : Oth t1 t2 R' R := fun x a b => (h x a b).symm
theorem Oth.l1 {t1 t2 : Nat} {R R' : Nat → Option (List α)} (h : Oth t1 t2 R R') (v : Option (List α)) : Oth t1 t2 (setR R t1 v) R' :=
  fun x a b => by rw [setR_ne _ _ a]; exact h x a b
theorem Oth.l2 {t1 t2 : Nat} {R R' : Nat → Option (List α)} (h : Oth t1 t2 R R') (v : Option (List α)) : Oth t1 t2 (setR R t2 v) R' :=
  fun x a b => by rw [setR_ne _ _ b]; exact h x a b
theorem Oth.r1 {t1 t2 : Nat} {R R' : Nat → Option (List α)} (h : Oth t1 t2 R R') (v : Option (List α)) : Oth t1 t2 R (setR R' t1 v) :=
  (h.symm.l1 v).symm
theorem Oth.both {t1 t2 : Nat} {R R' : Nat → Option (List α)} (h : Oth t1 t2 R R') (y : Nat) (v : Option (List α)) :
    Oth t1 t2 (setR R y v) (setR R' y v) := fun x a b => by
  by_cases hy : x = y
  · subst hy; simp
  · rw [setR_ne _ _ hy, setR_ne _ _ hy]; exact h x a b

structure Choice (A A' : ANet α) (t1 t2 : Nat) : Prop where
  ne : t1 ≠ t2
  T1 : A.T t1
  T2 : A.T t2
  pre : A.pre t1 = A.pre t2
  post : A.post t1 = A.post t2
  hpre : ∃ p, A.pre t1 p
  T' : ∀ x, A'.T x ↔ A.T x ∧ x ≠ t2
  pre' : ∀ x, x ≠ t2 → A'.pre x = A.pre x
  post' : ∀ x, x ≠ t2 → A'.post x = A.post x

structure ChoiceRel (t1 t2 : Nat) (c c' : Cfg α) : Prop where
  m : c.M = c'.M
  oth : Oth t1 t2 c.R c'.R
  n2 : c'.R t2 = none
  cs : (c.R t1 = c'.R t1 ∧ c.R t2 = none) ∨ (c.R t1 = none ∧ c.R t2 = c'.R t1)

theorem take_eq {A A' : ANet α} {x : Nat} (h : A'.pre x = A.pre x) (M : Nat → Nat) : A'.take x M = A.take x M := by funext p; simp [ANet.take, h]
theorem put_eq {A A' : ANet α} {x : Nat} (h : A'.post x = A.post x) (M : Nat → Nat) : A'.put x M = A.put x M := by funext p; simp [ANet.put, h]
theorem take_eq' {A A' : ANet α} {x y : Nat} (h : A'.pre x = A.pre y) (M : Nat → Nat) : A'.take x M = A.take y M := by funext p; simp [ANet.take, h]
theorem put_eq' {A A' : ANet α} {x y : Nat} (h : A'.post x = A.post y) (M : Nat → Nat) : A'.put x M = A.put y M := by funext p; simp [ANet.put, h]

theorem choice_fwd {A A' : ANet α} {t1 t2 i o : Nat} (S : Choice A A' t1 t2) (hx : ∀ x h, x ≠ t1 → x ≠ t2 → A.L x h → A'.L x h)
    (h1 : ∀ h, A.L t1 h → A'.L t1 h) (h2 : ∀ h, A.L t2 h → A'.L t1 h) : Fwd A A' i o := by
  have e1 := S.pre' t1 S.ne
  have e1' := S.post' t1 S.ne
  refine ⟨ChoiceRel t1 t2, ⟨rfl, .refl _ _ _, rfl, .inl ⟨rfl, rfl⟩⟩, ?_, ?_, ?_⟩
  · intro c c' l c1 hr hs hc s
    -- both cannot run
    have nostart : ∀ h, c'.R t1 = some h → ¬ ∀ p, A.pre t1 p → 0 < c.M p := by
      intro h hh hp
      obtain ⟨p, hp0⟩ := S.hpre
      have := (hs _ hr).pre t1 h p hh (by rw [e1]; exact hp0)
      have := hp p hp0
      rw [hc.m] at this; omega
    cases s with
    | start x hT hn hp =>
      by_cases hx1 : x = t1 ∨ x = t2
      · have hp' : ∀ p, A.pre t1 p → 0 < c.M p := by
          rcases hx1 with rfl | rfl
          · exact hp
          · rw [S.pre]; exact hp
        have hn' : c'.R t1 = none := by
          cases hh : c'.R t1 with
          | none => rfl
          | some h => exact absurd hp' (nostart h hh)
        refine ⟨⟨A'.take t1 c'.M, setR c'.R t1 (some [])⟩, .tau (.start c' t1 ((S.T' t1).2 ⟨S.T1, S.ne⟩) hn' (by rw [e1, ← hc.m]; exact hp')) (.nil _), ?_⟩
        have hcc : c.R t1 = none ∧ c.R t2 = none := by
          rcases hc.cs with ⟨a, b⟩ | ⟨a, b⟩
          · exact ⟨by rw [a, hn'], b⟩
          · exact ⟨a, by rw [b, hn']⟩
        rcases hx1 with rfl | rfl
        · exact ⟨by simp [take_eq e1, hc.m], (hc.oth.l1 _).r1 _, by simp [setR, Ne.symm S.ne, hc.n2], .inl ⟨by simp, by simp [setR, Ne.symm S.ne, hcc.2]⟩⟩
        · exact ⟨by simp [take_eq' (e1.trans S.pre), hc.m], (hc.oth.l2 _).r1 _, by simp [setR, Ne.symm S.ne, hc.n2],
            .inr ⟨by simp [setR, S.ne, hcc.1], by simp⟩⟩
      · rw [not_or] at hx1
        have ex := S.pre' x hx1.2
        refine ⟨⟨A'.take x c'.M, setR c'.R x (some [])⟩, .tau (.start c' x ((S.T' x).2 ⟨hT, hx1.2⟩) (by rw [← hc.oth x hx1.1 hx1.2]; exact hn)
          (by rw [ex, ← hc.m]; exact hp)) (.nil _), ?_⟩
        exact ⟨by simp [take_eq ex, hc.m], hc.oth.both _ _, by simp [setR, Ne.symm hx1.2, hc.n2], by
          simp only [setR_ne _ _ (Ne.symm hx1.1), setR_ne _ _ (Ne.symm hx1.2)]; exact hc.cs⟩
    | emit x _ h hh =>
      by_cases hx1 : x = t1 ∨ x = t2
      · have h' : c'.R t1 = some h := by
          rcases hx1 with rfl | rfl <;> rcases hc.cs with ⟨a, b⟩ | ⟨a, b⟩
          · rw [← a]; exact hh
          · rw [a] at hh; cases hh
          · rw [b] at hh; cases hh
          · rw [← b]; exact hh
        refine ⟨_, .vis (.emit c' t1 _ h h') (.nil _), ?_⟩
        rcases hx1 with rfl | rfl
        · have : c.R t2 = none := by
            rcases hc.cs with ⟨a, b⟩ | ⟨a, b⟩
            · exact b
            · rw [a] at hh; cases hh
          exact ⟨hc.m, (hc.oth.l1 _).r1 _, by simp [setR, Ne.symm S.ne, hc.n2], .inl ⟨by simp, by simp [setR, Ne.symm S.ne, this]⟩⟩
        · have : c.R t1 = none := by
            rcases hc.cs with ⟨a, b⟩ | ⟨a, b⟩
            · rw [b] at hh; cases hh
            · exact a
          exact ⟨hc.m, (hc.oth.l2 _).r1 _, by simp [setR, Ne.symm S.ne, hc.n2], .inr ⟨by simp [setR, S.ne, this], by simp⟩⟩
      · rw [not_or] at hx1
        refine ⟨_, .vis (.emit c' x _ h (by rw [← hc.oth x hx1.1 hx1.2]; exact hh)) (.nil _), ?_⟩
        exact ⟨hc.m, hc.oth.both _ _, by simp [setR, Ne.symm hx1.2, hc.n2], by
          simp only [setR_ne _ _ (Ne.symm hx1.1), setR_ne _ _ (Ne.symm hx1.2)]; exact hc.cs⟩
    | stop x h hh hL =>
      by_cases hx1 : x = t1 ∨ x = t2
      · have h' : c'.R t1 = some h := by
          rcases hx1 with rfl | rfl <;> rcases hc.cs with ⟨a, b⟩ | ⟨a, b⟩
          · rw [← a]; exact hh
          · rw [a] at hh; cases hh
          · rw [b] at hh; cases hh
          · rw [← b]; exact hh
        have hL' : A'.L t1 h := by
          rcases hx1 with rfl | rfl
          · exact h1 h hL
          · exact h2 h hL
        refine ⟨_, .tau (.stop c' t1 h h' hL') (.nil _), ?_⟩
        rcases hx1 with rfl | rfl
        · have : c.R t2 = none := by
            rcases hc.cs with ⟨a, b⟩ | ⟨a, b⟩
            · exact b
            · rw [a] at hh; cases hh
          exact ⟨by simp [put_eq e1', hc.m], (hc.oth.l1 _).r1 _, by simp [setR, Ne.symm S.ne, hc.n2], .inl ⟨by simp, by simp [setR, Ne.symm S.ne, this]⟩⟩
        · have : c.R t1 = none := by
            rcases hc.cs with ⟨a, b⟩ | ⟨a, b⟩
            · rw [b] at hh; cases hh
            · exact a
          exact ⟨by simp [put_eq' (e1'.trans S.post), hc.m], (hc.oth.l2 _).r1 _, by simp [setR, Ne.symm S.ne, hc.n2],
            .inr ⟨by simp [setR, S.ne, this], by simp⟩⟩
      · rw [not_or] at hx1
        refine ⟨_, .tau (.stop c' x h (by rw [← hc.oth x hx1.1 hx1.2]; exact hh) (hx x h hx1.1 hx1.2 hL)) (.nil _), ?_⟩
        exact ⟨by simp [put_eq (S.post' x hx1.2), hc.m], hc.oth.both _ _, by simp [setR, Ne.symm hx1.2, hc.n2], by
          simp only [setR_ne _ _ (Ne.symm hx1.1), setR_ne _ _ (Ne.symm hx1.2)]; exact hc.cs⟩
  · intro c c' hr hs hc
    have hs' := hs _ hr
    have key : ∀ t h, c.R t = some h → ∃ t', c'.R t' = some h ∧ A'.pre t' = A.pre t ∧ A'.post t' = A.post t := by
      intro t h hh
      by_cases h1 : t = t1
      · subst h1
        rcases hc.cs with ⟨a, b⟩ | ⟨a, b⟩
        · exact ⟨t, by rw [← a]; exact hh, e1, e1'⟩
        · rw [a] at hh; cases hh
      · by_cases h2 : t = t2
        · subst h2
          rcases hc.cs with ⟨a, b⟩ | ⟨a, b⟩
          · rw [b] at hh; cases hh
          · exact ⟨t1, by rw [← b]; exact hh, e1.trans S.pre, e1'.trans S.post⟩
        · exact ⟨t, by rw [← hc.oth t h1 h2]; exact hh, S.pre' t h2, S.post' t h2⟩
    refine ⟨fun p => by rw [hc.m]; exact hs'.one p, ?_, ?_⟩
    · intro t h p hh hp
      obtain ⟨t', a, b, d⟩ := key t h hh
      rw [hc.m]; exact hs'.pre t' h p a (by rw [b]; exact hp)
    · intro t h p hh hp
      obtain ⟨t', a, b, d⟩ := key t h hh
      rw [hc.m]; exact hs'.post t' h p a (by rw [d]; exact hp)
  · intro c c' _ _ hc hf
    refine ⟨by rw [← hc.m]; exact hf.1, fun t => ?_⟩
    by_cases h2 : t = t2
    · subst h2; exact hc.n2
    · by_cases h1 : t = t1
      · subst h1
        rcases hc.cs with ⟨a, b⟩ | ⟨a, b⟩
        · rw [← a]; exact hf.2 _
        · rw [← b]; exact hf.2 _
      · rw [← hc.oth t h1 h2]; exact hf.2 t

theorem choice_bwd {A A' : ANet α} {t1 t2 i o : Nat} (S : Choice A A' t1 t2) (hx : ∀ x h, x ≠ t1 → x ≠ t2 → A'.L x h → A.L x h)
    (h1 : ∀ h, A'.L t1 h → A.L t1 h ∨ A.L t2 h) : Bwd A A' i o := by
  have e1 := S.pre' t1 S.ne
  have e1' := S.post' t1 S.ne
  refine ⟨fun c' c => ChoiceRel t1 t2 c c', ⟨rfl, .refl _ _ _, rfl, .inl ⟨rfl, rfl⟩⟩, ?_, ?_⟩
  · intro c' c l c1' hc s
    cases s with
    | start x u hT hn hp hL =>
      have hx2 := ((S.T' x).1 hT).2
      by_cases hx1 : x = t1
      · subst hx1
        have hcc : c.R x = none ∧ c.R t2 = none := by
          rcases hc.cs with ⟨a, b⟩ | ⟨a, b⟩
          · exact ⟨by rw [a, hn], b⟩
          · exact ⟨a, by rw [b, hn]⟩
        rcases h1 u hL with hL | hL
        · refine ⟨_, .tau (.start c x u S.T1 hcc.1 (by rw [hc.m, ← e1]; exact hp) hL) (.nil _), ?_⟩
          exact ⟨by simp [take_eq e1, hc.m], (hc.oth.l1 _).r1 _, by simp [setR, Ne.symm S.ne, hc.n2], .inl ⟨by simp, by simp [setR, Ne.symm S.ne, hcc.2]⟩⟩
        · refine ⟨_, .tau (.start c t2 u S.T2 hcc.2 (by rw [hc.m, ← S.pre, ← e1]; exact hp) hL) (.nil _), ?_⟩
          exact ⟨by simp [take_eq' (e1.trans S.pre), hc.m], (hc.oth.l2 _).r1 _, by simp [setR, Ne.symm S.ne, hc.n2],
            .inr ⟨by simp [setR, S.ne, hcc.1], by simp⟩⟩
      · have ex := S.pre' x hx2
        refine ⟨_, .tau (.start c x u ((S.T' x).1 hT).1 (by rw [hc.oth x hx1 hx2]; exact hn) (by rw [hc.m, ← ex]; exact hp) (hx x u hx1 hx2 hL)) (.nil _), ?_⟩
        exact ⟨by simp [take_eq ex, hc.m], hc.oth.both _ _, by simp [setR, Ne.symm hx2, hc.n2], by
          simp only [setR_ne _ _ (Ne.symm hx1), setR_ne _ _ (Ne.symm hx2)]; exact hc.cs⟩
    | emit x a u hh =>
      have hx2 : x ≠ t2 := by rintro rfl; rw [hc.n2] at hh; cases hh
      by_cases hx1 : x = t1
      · subst hx1
        rcases hc.cs with ⟨a, b⟩ | ⟨a, b⟩
        · refine ⟨_, .vis (.emit c x _ u (by rw [a]; exact hh)) (.nil _), ?_⟩
          exact ⟨hc.m, (hc.oth.l1 _).r1 _, by simp [setR, Ne.symm S.ne, hc.n2], .inl ⟨by simp, by simp [setR, Ne.symm S.ne, b]⟩⟩
        · refine ⟨_, .vis (.emit c t2 _ u (by rw [b]; exact hh)) (.nil _), ?_⟩
          exact ⟨hc.m, (hc.oth.l2 _).r1 _, by simp [setR, Ne.symm S.ne, hc.n2], .inr ⟨by simp [setR, S.ne, a], by simp⟩⟩
      · refine ⟨_, .vis (.emit c x _ u (by rw [hc.oth x hx1 hx2]; exact hh)) (.nil _), ?_⟩
        exact ⟨hc.m, hc.oth.both _ _, by simp [setR, Ne.symm hx2, hc.n2], by
          simp only [setR_ne _ _ (Ne.symm hx1), setR_ne _ _ (Ne.symm hx2)]; exact hc.cs⟩
    | stop x hh =>
      have hx2 : x ≠ t2 := by rintro rfl; rw [hc.n2] at hh; cases hh
      by_cases hx1 : x = t1
      · subst hx1
        rcases hc.cs with ⟨a, b⟩ | ⟨a, b⟩
        · refine ⟨_, .tau (.stop c x (by rw [a]; exact hh)) (.nil _), ?_⟩
          exact ⟨by simp [put_eq e1', hc.m], (hc.oth.l1 _).r1 _, by simp [setR, Ne.symm S.ne, hc.n2], .inl ⟨by simp, by simp [setR, Ne.symm S.ne, b]⟩⟩
        · refine ⟨_, .tau (.stop c t2 (by rw [b]; exact hh)) (.nil _), ?_⟩
          exact ⟨by simp [put_eq' (e1'.trans S.post), hc.m], (hc.oth.l2 _).r1 _, by simp [setR, Ne.symm S.ne, hc.n2],
            .inr ⟨by simp [setR, S.ne, a], by simp⟩⟩
      · refine ⟨_, .tau (.stop c x (by rw [hc.oth x hx1 hx2]; exact hh)) (.nil _), ?_⟩
        exact ⟨by simp [put_eq (S.post' x hx2), hc.m], hc.oth.both _ _, by simp [setR, Ne.symm hx2, hc.n2], by
          simp only [setR_ne _ _ (Ne.symm hx1), setR_ne _ _ (Ne.symm hx2)]; exact hc.cs⟩
  · intro c' c hc hf
    refine ⟨by rw [hc.m]; exact hf.1, fun t => ?_⟩
    by_cases h1 : t = t1
    · subst h1
      rcases hc.cs with ⟨a, b⟩ | ⟨a, b⟩
      · rw [a]; exact hf.2 _
      · exact a
    · by_cases h2 : t = t2
      · subst h2
        rcases hc.cs with ⟨a, b⟩ | ⟨a, b⟩
        · exact b
        · rw [b]; exact hf.2 _
      · rw [hc.oth t h1 h2]; exact hf.2 t

theorem choice_red {A A' : ANet α} {t1 t2 i o : Nat} (S : Choice A A' t1 t2) (hx : ∀ x, x ≠ t1 → x ≠ t2 → A'.L x = A.L x)
    (hL : ∀ h, A'.L t1 h ↔ A.L t1 h ∨ A.L t2 h) : Red A A' i o := by
  refine red_of (choice_fwd S (fun x h a b => by rw [hx x a b]; exact id) (fun h a => (hL h).2 (.inl a)) (fun h a => (hL h).2 (.inr a))) ?_
    (choice_bwd S (fun x h a b => by rw [hx x a b]; exact id) (fun h a => (hL h).1 a))
  refine choice_fwd (t1 := t1) (t2 := t2) ⟨S.ne, S.T1, S.T2, S.pre, S.post, S.hpre, S.T', S.pre', S.post'⟩ ?_ ?_ ?_ <;> intros <;> trivial

end Verif.WfTree
