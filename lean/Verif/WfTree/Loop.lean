import Verif.WfTree.Conc
/-
C53: a transition and a second one that undoes it can be replaced by one transition with the loop language.
-/
set_option linter.unusedSectionVars false
namespace Verif.WfTree
open Classical
variable {α : Type}

structure LoopS (A A' : ANet α) (t1 t2 i o : Nat) : Prop where
  ne : t1 ≠ t2
  T1 : A.T t1
  T2 : A.T t2
  ha : A.pre t1 = A.post t2
  hb : A.post t1 = A.pre t2
  hpre : ∃ p, A.pre t1 p
  hpost : ∃ p, A.post t1 p
  cons : ∀ p x, A.pre t1 p → A.T x → A.pre x p → x = t1
  prod : ∀ p x, A.post t1 p → A.T x → A.post x p → x = t1
  hi : ¬ A.post t1 i
  hoA : ¬ A.pre t1 o
  hoB : ¬ A.post t1 o
  T' : ∀ x, A'.T x ↔ A.T x ∧ x ≠ t2
  pre' : ∀ x, x ≠ t2 → A'.pre x = A.pre x
  post' : ∀ x, x ≠ t2 → A'.post x = A.post x

/-- alternating sequences of the body and the redo part -/
inductive LStar (D R : Lang α) : List α → Prop
  | nil : LStar D R []
  | snoc {h d r : List α} : LStar D R h → D d → R r → LStar D R (h ++ d ++ r)

theorem LStar.loop {D R : Lang α} {h w : List α} (hs : LStar D R h) : Lang.loopL D [R] w → Lang.loopL D [R] (h ++ w) := by
  induction hs generalizing w with
  | nil => exact id
  | @snoc h d r _ hd hr ih =>
    intro hw
    have := ih (.again R hd (by simp) hr hw)
    simpa using this

inductive LoopSt (A : ANet α) (t1 t2 : Nat) (c c' : Cfg α) : Prop
  | idle : c'.R t1 = none → c.R t1 = none → c.R t2 = none → c.M = c'.M → (∃ b, A.post t1 b ∧ c'.M b = 0) → LoopSt A t1 t2 c c'
  | run1 (h0 h : List α) : c'.R t1 = some (h0 ++ h) → LStar (A.L t1) (A.L t2) h0 → c.R t1 = some h → c.R t2 = none → c.M = c'.M → LoopSt A t1 t2 c c'
  | atB (h0 h : List α) : c'.R t1 = some (h0 ++ h) → LStar (A.L t1) (A.L t2) h0 → A.L t1 h → c.R t1 = none → c.R t2 = none →
      c.M = ext c'.M (A.post t1) → LoopSt A t1 t2 c c'
  | run2 (h0 d h : List α) : c'.R t1 = some (h0 ++ d ++ h) → LStar (A.L t1) (A.L t2) h0 → A.L t1 d → c.R t1 = none → c.R t2 = some h →
      c.M = c'.M → LoopSt A t1 t2 c c'
  | atA (h : List α) : c'.R t1 = some h → LStar (A.L t1) (A.L t2) h → c.R t1 = none → c.R t2 = none → c.M = ext c'.M (A.pre t1) → LoopSt A t1 t2 c c'

structure LoopRel (A : ANet α) (t1 t2 : Nat) (c c' : Cfg α) : Prop where
  oth : Oth t1 t2 c.R c'.R
  n2 : c'.R t2 = none
  st : LoopSt A t1 t2 c c'

section
variable {A A' : ANet α} {t1 t2 i o : Nat}

theorem LoopS.disj (S : LoopS A A' t1 t2 i o) {p : Nat} (h1 : A.pre t1 p) (h2 : A.post t1 p) : False :=
  S.ne (S.prod p t2 h2 S.T2 (by rw [← S.ha]; exact h1)).symm

theorem LoopSt.congr {c c' d d' : Cfg α} (h : LoopSt A t1 t2 c c') (h1 : d.R t1 = c.R t1) (h2 : d.R t2 = c.R t2)
    (h3 : d'.R t1 = c'.R t1) (h4 : c.M = c'.M → d.M = d'.M) (h5 : c.M = ext c'.M (A.post t1) → d.M = ext d'.M (A.post t1))
    (h6 : c.M = ext c'.M (A.pre t1) → d.M = ext d'.M (A.pre t1))
    (h7 : ∀ b, A.post t1 b → c'.M b = 0 → d'.M b = 0) : LoopSt A t1 t2 d d' := by
  cases h with
  | idle a b e f g => exact .idle (h3.trans a) (h1.trans b) (h2.trans e) (h4 f) (by obtain ⟨q, x, y⟩ := g; exact ⟨q, x, h7 q x y⟩)
  | run1 h0 h a l b e f => exact .run1 h0 h (h3.trans a) l (h1.trans b) (h2.trans e) (h4 f)
  | atB h0 h a l l2 b e f => exact .atB h0 h (h3.trans a) l l2 (h1.trans b) (h2.trans e) (h5 f)
  | run2 h0 d h a l l2 b e f => exact .run2 h0 d h (h3.trans a) l l2 (h1.trans b) (h2.trans e) (h4 f)
  | atA h a l b e f => exact .atA h (h3.trans a) l (h1.trans b) (h2.trans e) (h6 f)

theorem ext_take {M : Nat → Nat} {P : Nat → Prop} {x : Nat} (h : ∀ p, A.pre x p → ¬ P p) : A.take x (ext M P) = ext (A.take x M) P := by
  funext q
  simp only [ANet.take, ext]
  by_cases h1 : A.pre x q
  · simp [h1, h q h1]
  · simp [h1]

theorem ext_put {M : Nat → Nat} {P : Nat → Prop} {x : Nat} : A.put x (ext M P) = ext (A.put x M) P := by
  funext q
  simp only [ANet.put, ext]
  split <;> split <;> omega

theorem loop_fwd (S : LoopS A A' t1 t2 i o) (hx : ∀ x h, x ≠ t1 → x ≠ t2 → A.L x h → A'.L x h)
    (hL : ∀ h d, LStar (A.L t1) (A.L t2) h → A.L t1 d → A'.L t1 (h ++ d)) : Fwd A A' i o := by
  have e1 := S.pre' t1 S.ne
  have e1' := S.post' t1 S.ne
  have T1' := (S.T' t1).2 ⟨S.T1, S.ne⟩
  refine ⟨LoopRel A t1 t2, ⟨.refl _ _ _, rfl, .idle rfl rfl rfl rfl ?_⟩, ?_, ?_, ?_⟩
  · obtain ⟨b, hb⟩ := S.hpost
    refine ⟨b, hb, ?_⟩
    simp only [init]
    rw [if_neg]; rintro rfl; exact S.hi hb
  · intro c c' l c1 hr hs hc s
    have hs' := hs _ hr
    have zA : ∀ {h p}, c'.R t1 = some h → A.pre t1 p → c'.M p = 0 := fun hh hp => hs'.pre t1 _ _ hh (by rw [e1]; exact hp)
    have zB : ∀ {h p}, c'.R t1 = some h → A.post t1 p → c'.M p = 0 := fun hh hp => hs'.post t1 _ _ hh (by rw [e1']; exact hp)
    cases s with
    | start x hT hn hp =>
      by_cases hx1 : x = t1
      · subst hx1
        obtain ⟨p, hp0⟩ := S.hpre
        have hpp := hp p hp0
        cases hc.st with
        | idle a b e f g =>
          refine ⟨⟨A'.take x c'.M, setR c'.R x (some [])⟩, .tau (.start c' x T1' a (by rw [e1, ← f]; exact hp)) (.nil _), ?_⟩
          exact ⟨(hc.oth.l1 _).r1 _, by simp [setR, Ne.symm S.ne, hc.n2], .run1 [] [] (by simp) .nil (by simp) (by simp [setR, Ne.symm S.ne, e]) (by simp [take_eq e1, f])⟩
        | run1 h0 h a l b e f => rw [f, zA a hp0] at hpp; omega
        | run2 h0 d h a l l2 b e f => rw [f, zA a hp0] at hpp; omega
        | atB h0 h a l l2 b e f =>
          rw [f] at hpp
          have : ¬ A.post x p := fun h => S.disj hp0 h
          simp [ext, this, zA a hp0] at hpp
        | atA h a l b e f =>
          refine ⟨c', .nil _, hc.oth.l1 _, hc.n2, .run1 h [] (by simpa using a) l (by simp) (by simp [setR, Ne.symm S.ne, e]) ?_⟩
          funext q
          simp only [ANet.take, f, ext]
          split <;> simp
      · by_cases hx2 : x = t2
        · subst hx2
          cases hc.st with
          | idle a b e f g =>
            obtain ⟨q, h1, h2⟩ := g
            have := hp q (by rw [← S.hb]; exact h1)
            rw [f] at this; omega
          | run1 h0 h a l b e f =>
            obtain ⟨q, h1⟩ := S.hpost
            have := hp q (by rw [← S.hb]; exact h1)
            rw [f, zB a h1] at this; omega
          | run2 h0 d h a l l2 b e f => rw [e] at hn; cases hn
          | atA h a l b e f =>
            obtain ⟨q, h1⟩ := S.hpost
            have := hp q (by rw [← S.hb]; exact h1)
            rw [f] at this
            have h2 : ¬ A.pre t1 q := fun h => S.disj h h1
            simp [ext, h2, zB a h1] at this
          | atB h0 h a l l2 b e f =>
            refine ⟨c', .nil _, hc.oth.l2 _, hc.n2, .run2 h0 h [] (by simpa using a) l l2 (by simp [setR, S.ne, b]) (by simp) ?_⟩
            funext q
            simp only [ANet.take, f, ext, ← S.hb]
            split <;> simp
        · have ex := S.pre' x hx2
          have nA : ∀ p, A.pre x p → ¬ A.pre t1 p := fun p hp h => hx1 (S.cons p x h hT hp)
          have hn' : c'.R x = none := by rw [← hc.oth x hx1 hx2]; exact hn
          have Tx := (S.T' x).2 ⟨hT, hx2⟩
          -- without the end of the loop
          have easy : (∀ p, A.pre x p → 0 < c'.M p) → (c.M = ext c'.M (A.post t1) → ∀ p, A.pre x p → ¬ A.post t1 p) →
              ∃ c1', Run (StepH A') c' (oList none) c1' ∧ LoopRel A t1 t2 ⟨A.take x c.M, setR c.R x (some [])⟩ c1' := by
            intro hpos hnB
            refine ⟨⟨A'.take x c'.M, setR c'.R x (some [])⟩, .tau (.start c' x Tx hn' (by rw [ex]; exact hpos)) (.nil _), ?_⟩
            refine ⟨hc.oth.both _ _, by simp [setR, Ne.symm hx2, hc.n2], hc.st.congr (by simp [setR, Ne.symm hx1]) (by simp [setR, Ne.symm hx2]) (by simp [setR, Ne.symm hx1]) ?_ ?_ ?_ ?_⟩
            · intro f; simp [take_eq ex, f]
            · intro f
              simp only [f, take_eq ex]
              exact ext_take (hnB f)
            · intro f
              simp only [f, take_eq ex]
              exact ext_take nA
            · intro b _ h; simp [ANet.take, h]
          cases hst : hc.st with
          | idle a b e f g => exact easy (by rw [← f]; exact hp) (fun h => by
              obtain ⟨q, h1⟩ := S.hpost
              have := congrFun h q
              rw [f] at this
              simp [ext, h1] at this)
          | run1 h0 h a l b e f => exact easy (by rw [← f]; exact hp) (fun h => by
              obtain ⟨q, h1⟩ := S.hpost
              have := congrFun h q
              rw [f] at this
              simp [ext, h1] at this)
          | run2 h0 d h a l l2 b e f => exact easy (by rw [← f]; exact hp) (fun h => by
              obtain ⟨q, h1⟩ := S.hpost
              have := congrFun h q
              rw [f] at this
              simp [ext, h1] at this)
          | atA h a l b e f =>
            refine easy (fun p hp' => ?_) (fun h => ?_)
            · have := hp p hp'
              rw [f] at this
              simpa [ext, nA p hp'] using this
            · obtain ⟨q, h1⟩ := S.hpost
              have h2 : ¬ A.pre t1 q := fun h => S.disj h h1
              have := congrFun h q
              rw [f] at this
              simp [ext, h1, h2] at this
          | atB h0 h a l l2 b e f =>
            by_cases hB : ∃ p, A.pre x p ∧ A.post t1 p
            · obtain ⟨p, hpx, hpB⟩ := hB
              have hz := zB a hpB
              have hM : A'.put t1 c'.M = c.M := by
                rw [f]; funext q; simp [ANet.put, ext, e1']
              refine ⟨⟨A'.take x c.M, setR (setR c'.R t1 none) x (some [])⟩, ?_, ?_⟩
              · refine .tau (.stop c' t1 _ a (hL h0 h l l2)) (.tau (?_ : StepH A' ⟨A'.put t1 c'.M, setR c'.R t1 none⟩ none _) (.nil _))
                rw [hM]
                exact .start ⟨c.M, setR c'.R t1 none⟩ x Tx (by simp [setR, hx1, hn']) (by rw [ex]; exact hp)
              · refine ⟨(hc.oth.r1 _).both _ _, by simp [setR, Ne.symm hx2, Ne.symm S.ne, hc.n2], .idle (by simp [setR, Ne.symm hx1]) (by simp [setR, Ne.symm hx1, b]) (by simp [setR, Ne.symm hx2, e]) (by simp [take_eq ex]) ⟨p, hpB, ?_⟩⟩
                simp [ANet.take, ex, hpx, f, ext, hpB, hz]
            · refine easy (fun p hp' => ?_) (fun _ p h1 h2 => hB ⟨p, h1, h2⟩)
              have := hp p hp'
              rw [f] at this
              have h2 : ¬ A.post t1 p := fun h => hB ⟨p, hp', h⟩
              simpa [ext, h2] using this
    | emit x ev h hh =>
      by_cases hx1 : x = t1
      · subst hx1
        cases hc.st with
        | run1 h0 h' a l b e f =>
          rw [b] at hh; cases hh
          refine ⟨_, .vis (.emit c' x _ _ a) (.nil _), ?_⟩
          exact ⟨(hc.oth.l1 _).r1 _, by simp [setR, Ne.symm S.ne, hc.n2], .run1 h0 (h ++ [ev]) (by simp) l (by simp) (by simp [setR, Ne.symm S.ne, e]) f⟩
        | idle a b e f g => rw [b] at hh; cases hh
        | atB h0 h a l l2 b e f => rw [b] at hh; cases hh
        | run2 h0 d h a l l2 b e f => rw [b] at hh; cases hh
        | atA h a l b e f => rw [b] at hh; cases hh
      · by_cases hx2 : x = t2
        · subst hx2
          cases hc.st with
          | run2 h0 d h' a l l2 b e f =>
            rw [e] at hh; cases hh
            refine ⟨_, .vis (.emit c' t1 _ _ a) (.nil _), ?_⟩
            exact ⟨(hc.oth.l2 _).r1 _, by simp [setR, Ne.symm S.ne, hc.n2], .run2 h0 d (h ++ [ev]) (by simp) l l2 (by simp [setR, S.ne, b]) (by simp) f⟩
          | idle a b e f g => rw [e] at hh; cases hh
          | atB h0 h a l l2 b e f => rw [e] at hh; cases hh
          | run1 h0 h a l b e f => rw [e] at hh; cases hh
          | atA h a l b e f => rw [e] at hh; cases hh
        · refine ⟨_, .vis (.emit c' x _ h (by rw [← hc.oth x hx1 hx2]; exact hh)) (.nil _), ?_⟩
          exact ⟨hc.oth.both _ _, by simp [setR, Ne.symm hx2, hc.n2],
            hc.st.congr (by simp [setR, Ne.symm hx1]) (by simp [setR, Ne.symm hx2]) (by simp [setR, Ne.symm hx1]) id id id (fun _ _ h => h)⟩
    | stop x h hh hLx =>
      by_cases hx1 : x = t1
      · subst hx1
        cases hc.st with
        | run1 h0 h' a l b e f =>
          rw [b] at hh; cases hh
          refine ⟨c', .nil _, hc.oth.l1 _, hc.n2, .atB h0 h a l hLx (by simp) (by simp [setR, Ne.symm S.ne, e]) ?_⟩
          funext q; simp [ANet.put, ext, f]
        | idle a b e f g => rw [b] at hh; cases hh
        | atB h0 h a l l2 b e f => rw [b] at hh; cases hh
        | run2 h0 d h a l l2 b e f => rw [b] at hh; cases hh
        | atA h a l b e f => rw [b] at hh; cases hh
      · by_cases hx2 : x = t2
        · subst hx2
          cases hc.st with
          | run2 h0 d h' a l l2 b e f =>
            rw [e] at hh; cases hh
            refine ⟨c', .nil _, hc.oth.l2 _, hc.n2, .atA _ a (.snoc l l2 hLx) (by simp [setR, S.ne, b]) (by simp) ?_⟩
            funext q; simp [ANet.put, ext, f, S.ha]
          | idle a b e f g => rw [e] at hh; cases hh
          | atB h0 h a l l2 b e f => rw [e] at hh; cases hh
          | run1 h0 h a l b e f => rw [e] at hh; cases hh
          | atA h a l b e f => rw [e] at hh; cases hh
        · have ex := S.post' x hx2
          have hr' : c'.R x = some h := by rw [← hc.oth x hx1 hx2]; exact hh
          have hT := ((S.T' x).1 (hr.run_T hr')).1
          refine ⟨_, .tau (.stop c' x h hr' (hx x h hx1 hx2 hLx)) (.nil _), ?_⟩
          refine ⟨hc.oth.both _ _, by simp [setR, Ne.symm hx2, hc.n2], hc.st.congr (by simp [setR, Ne.symm hx1]) (by simp [setR, Ne.symm hx2]) (by simp [setR, Ne.symm hx1]) ?_ ?_ ?_ ?_⟩
          · intro f; simp [put_eq ex, f]
          · intro f; simp only [put_eq ex, f]; exact ext_put
          · intro f; simp only [put_eq ex, f]; exact ext_put
          · intro b hb hz
            have : ¬ A.post x b := fun h => hx1 (S.prod b x hb hT h)
            simp [ANet.put, ex, this, hz]
  · intro c c' hr hs hc
    have hs' := hs _ hr
    have zA : ∀ {h p}, c'.R t1 = some h → A.pre t1 p → c'.M p = 0 := fun hh hp => hs'.pre t1 _ _ hh (by rw [e1]; exact hp)
    have zB : ∀ {h p}, c'.R t1 = some h → A.post t1 p → c'.M p = 0 := fun hh hp => hs'.post t1 _ _ hh (by rw [e1']; exact hp)
    have hT : ∀ t h, t ≠ t1 → t ≠ t2 → c.R t = some h → A.T t := fun t h a b e =>
      ((S.T' t).1 (hr.run_T (by rw [← hc.oth t a b]; exact e))).1
    -- where the tokens differ
    have key : ∀ p, c.M p = c'.M p ∨ (c.R t1 = none ∧ c.R t2 = none ∧ c.M p = 1 ∧ ∃ h, c'.R t1 = some h ∧ (A.pre t1 p ∨ A.post t1 p)) := by
      intro p
      cases hc.st with
      | idle a b e f g => exact .inl (by rw [f])
      | run1 h0 h a l b e f => exact .inl (by rw [f])
      | run2 h0 d h a l l2 b e f => exact .inl (by rw [f])
      | atB h0 h a l l2 b e f =>
        by_cases h1 : A.post t1 p
        · exact .inr ⟨b, e, by rw [f]; simp [ext, h1, zB a h1], _, a, .inr h1⟩
        · exact .inl (by rw [f]; simp [ext, h1])
      | atA h a l b e f =>
        by_cases h1 : A.pre t1 p
        · exact .inr ⟨b, e, by rw [f]; simp [ext, h1, zA a h1], _, a, .inl h1⟩
        · exact .inl (by rw [f]; simp [ext, h1])
    have r1 : ∀ t h, t = t1 ∨ t = t2 → c.R t = some h → ∃ h', c'.R t1 = some h' := by
      intro t h ht hh
      cases hc.st with
      | run1 h0 h a l b e f => exact ⟨_, a⟩
      | run2 h0 d h a l l2 b e f => exact ⟨_, a⟩
      | idle a b e f g =>
        rcases ht with rfl | rfl
        · rw [b] at hh; cases hh
        · rw [e] at hh; cases hh
      | atB h0 h a l l2 b e f => exact ⟨_, a⟩
      | atA h a l b e f => exact ⟨_, a⟩
    refine ⟨?_, ?_, ?_⟩
    · intro p
      rcases key p with h | h
      · rw [h]; exact hs'.one p
      · omega
    · intro t h p hh hp
      by_cases h12 : t = t1 ∨ t = t2
      · obtain ⟨h', ha⟩ := r1 t h h12 hh
        rcases key p with k | ⟨k1, k2, _⟩
        · rw [k]
          rcases h12 with rfl | rfl
          · exact zA ha hp
          · exact zB ha (by rw [S.hb]; exact hp)
        · rcases h12 with rfl | rfl
          · rw [k1] at hh; cases hh
          · rw [k2] at hh; cases hh
      · rw [not_or] at h12
        have hr' : c'.R t = some h := by rw [← hc.oth t h12.1 h12.2]; exact hh
        have hp' : A'.pre t p := by rw [S.pre' t h12.2]; exact hp
        rcases key p with k | ⟨_, _, _, h', ha, k⟩
        · rw [k]; exact hs'.pre t h p hr' hp'
        · exfalso
          rcases k with k | k
          · exact h12.1 (S.cons p t k (hT t h h12.1 h12.2 hh) hp)
          · exact (hs.no_post hr (t := t) (x := t1) hr' ha (Ne.symm h12.1) p (by rw [e1']; exact k)).1 hp'
    · intro t h p hh hp
      by_cases h12 : t = t1 ∨ t = t2
      · obtain ⟨h', ha⟩ := r1 t h h12 hh
        rcases key p with k | ⟨k1, k2, _⟩
        · rw [k]
          rcases h12 with rfl | rfl
          · exact zB ha hp
          · exact zA ha (by rw [S.ha]; exact hp)
        · rcases h12 with rfl | rfl
          · rw [k1] at hh; cases hh
          · rw [k2] at hh; cases hh
      · rw [not_or] at h12
        have hr' : c'.R t = some h := by rw [← hc.oth t h12.1 h12.2]; exact hh
        have hp' : A'.post t p := by rw [S.post' t h12.2]; exact hp
        rcases key p with k | ⟨_, _, _, h', ha, k⟩
        · rw [k]; exact hs'.post t h p hr' hp'
        · exfalso
          rcases k with k | k
          · exact (hs.no_post hr (t := t1) (x := t) ha hr' h12.1 p hp').1 (by rw [e1]; exact k)
          · exact h12.1 (S.prod p t k (hT t h h12.1 h12.2 hh) hp)
  · intro c c' _ _ hc hf
    have hidle : c'.R t1 = none ∧ c.M = c'.M := by
      cases hc.st with
      | idle a b e f g => exact ⟨a, f⟩
      | run1 h0 h a l b e f => have := hf.2 t1; rw [b] at this; cases this
      | run2 h0 d h a l l2 b e f => have := hf.2 t2; rw [e] at this; cases this
      | atB h0 h a l l2 b e f =>
        exfalso
        obtain ⟨p, hp⟩ := S.hpost
        have h1 := hf.1 p
        rw [if_neg (by rintro rfl; exact S.hoB hp), f] at h1
        simp [ext, hp] at h1
      | atA h a l b e f =>
        exfalso
        obtain ⟨p, hp⟩ := S.hpre
        have h1 := hf.1 p
        rw [if_neg (by rintro rfl; exact S.hoA hp), f] at h1
        simp [ext, hp] at h1
    refine ⟨by rw [← hidle.2]; exact hf.1, fun t => ?_⟩
    by_cases h1 : t = t1
    · rw [h1]; exact hidle.1
    · by_cases h2 : t = t2
      · rw [h2]; exact hc.n2
      · rw [← hc.oth t h1 h2]; exact hf.2 t

/-- alternating sequences of the redo part and the body -/
inductive Tail (D R : Lang α) : List α → Prop
  | nil : Tail D R []
  | cons {r d v : List α} : R r → D d → Tail D R v → Tail D R (r ++ d ++ v)

theorem loopL_tail {D R : Lang α} {w : List α} (h : Lang.loopL D [R] w) : ∃ d v, D d ∧ Tail D R v ∧ w = d ++ v := by
  induction h with
  | exit h => exact ⟨_, [], h, .nil, by simp⟩
  | again R' hd hR hr _ ih =>
    obtain ⟨d', v, h1, h2, rfl⟩ := ih
    simp at hR
    subst hR
    exact ⟨_, _, hd, .cons hr h1 h2, by simp⟩

inductive LoopStU (A : ANet α) (t1 t2 : Nat) (c c' : Cfg α) : Prop
  | idle : c'.R t1 = none → c.R t1 = none → c.R t2 = none → LoopStU A t1 t2 c c'
  | run1 (r v : List α) : c'.R t1 = some (r ++ v) → Tail (A.L t1) (A.L t2) v → c.R t1 = some r → c.R t2 = none → LoopStU A t1 t2 c c'
  | run2 (r d v : List α) : c'.R t1 = some (r ++ d ++ v) → A.L t1 d → Tail (A.L t1) (A.L t2) v → c.R t1 = none → c.R t2 = some r → LoopStU A t1 t2 c c'

structure LoopRelU (A : ANet α) (t1 t2 : Nat) (c c' : Cfg α) : Prop where
  m : c.M = c'.M
  oth : Oth t1 t2 c.R c'.R
  n2 : c'.R t2 = none
  st : LoopStU A t1 t2 c c'

theorem LoopStU.congr {c c' d d' : Cfg α} (h : LoopStU A t1 t2 c c') (h1 : d.R t1 = c.R t1) (h2 : d.R t2 = c.R t2)
    (h3 : d'.R t1 = c'.R t1) : LoopStU A t1 t2 d d' := by
  cases h with
  | idle a b e => exact .idle (h3.trans a) (h1.trans b) (h2.trans e)
  | run1 r u a l b e => exact .run1 r u (h3.trans a) l (h1.trans b) (h2.trans e)
  | run2 r d v a l l2 b e => exact .run2 r d v (h3.trans a) l l2 (h1.trans b) (h2.trans e)

theorem pass12 (S : LoopS A A' t1 t2 i o) {c : Cfg α} {r : List α} (h1 : c.R t1 = some []) (h2 : c.R t2 = none) (hr : A.L t2 r) :
    Run (StepU A) c [] ⟨c.M, setR (setR c.R t1 none) t2 (some r)⟩ := by
  refine .tau (.stop c t1 h1) (.tau (.start _ t2 r S.T2 (by simp [setR, Ne.symm S.ne, h2]) ?_ hr) ?_)
  · intro p hp
    rw [← S.hb] at hp
    simp [ANet.put, hp]
  · have : A.take t2 (A.put t1 c.M) = c.M := by
      funext q
      simp only [ANet.take, ANet.put, ← S.hb]
      split <;> simp
    rw [this]
    exact .nil _

theorem pass21 (S : LoopS A A' t1 t2 i o) {c : Cfg α} {r : List α} (h1 : c.R t2 = some []) (h2 : c.R t1 = none) (hr : A.L t1 r) :
    Run (StepU A) c [] ⟨c.M, setR (setR c.R t2 none) t1 (some r)⟩ := by
  refine .tau (.stop c t2 h1) (.tau (.start _ t1 r S.T1 (by simp [setR, S.ne, h2]) ?_ hr) ?_)
  · intro p hp
    rw [S.ha] at hp
    simp [ANet.put, hp]
  · have : A.take t1 (A.put t2 c.M) = c.M := by
      funext q
      simp only [ANet.take, ANet.put, S.ha]
      split <;> simp
    rw [this]
    exact .nil _

/-- ready for the next activity or for the end -/
def Ready (A : ANet α) (t1 t2 : Nat) (c : Cfg α) (s : List α) : Prop :=
  (s = [] ∧ c.R t1 = some [] ∧ c.R t2 = none) ∨
  (∃ a r v, s = a :: r ++ v ∧ Tail (A.L t1) (A.L t2) v ∧ c.R t1 = some (a :: r) ∧ c.R t2 = none) ∨
  (∃ a r d v, s = a :: r ++ d ++ v ∧ A.L t1 d ∧ Tail (A.L t1) (A.L t2) v ∧ c.R t1 = none ∧ c.R t2 = some (a :: r))

theorem adv1 (S : LoopS A A' t1 t2 i o) {v : List α} (hv : Tail (A.L t1) (A.L t2) v) : ∀ (c c' : Cfg α), c.M = c'.M → Oth t1 t2 c.R c'.R →
    c.R t1 = some [] → c.R t2 = none → ∃ d, Run (StepU A) c [] d ∧ d.M = c'.M ∧ Oth t1 t2 d.R c'.R ∧ Ready A t1 t2 d v := by
  induction hv with
  | nil => intro c c' hm ho h1 h2; exact ⟨c, .nil _, hm, ho, .inl ⟨rfl, h1, h2⟩⟩
  | @cons r d v hr hd hv ih =>
    intro c c' hm ho h1 h2
    have p1 := pass12 S h1 h2 hr
    cases r with
    | cons a r =>
      exact ⟨_, p1, hm, (ho.l1 _).l2 _, .inr (.inr ⟨a, r, d, v, rfl, hd, hv, by simp [setR, S.ne], by simp⟩)⟩
    | nil =>
      have p2 := pass21 S (c := ⟨c.M, setR (setR c.R t1 none) t2 (some [])⟩) (by simp) (by simp [setR, S.ne]) hd
      cases d with
      | cons a d =>
        exact ⟨_, p1.trans p2, hm, (((ho.l1 _).l2 _).l2 _).l1 _, .inr (.inl ⟨a, d, v, by simp, hv, by simp, by simp [setR, Ne.symm S.ne]⟩)⟩
      | nil =>
        obtain ⟨e, p3, q1, q2, q3⟩ := ih ⟨c.M, setR (setR (setR (setR c.R t1 none) t2 (some [])) t2 none) t1 (some [])⟩ c' hm ((((ho.l1 _).l2 _).l2 _).l1 _) (by simp)
          (by simp [setR, Ne.symm S.ne])
        exact ⟨e, (p1.trans p2).trans p3, q1, q2, by simpa using q3⟩

theorem adv (S : LoopS A A' t1 t2 i o) {c c' : Cfg α} (hc : LoopRelU A t1 t2 c c') {s : List α} (hs : c'.R t1 = some s) :
    ∃ d, Run (StepU A) c [] d ∧ d.M = c'.M ∧ Oth t1 t2 d.R c'.R ∧ Ready A t1 t2 d s := by
  cases hc.st with
  | idle a b e => rw [a] at hs; cases hs
  | run1 r v a l b e =>
    rw [a] at hs; cases hs
    cases r with
    | cons x r => exact ⟨c, .nil _, hc.m, hc.oth, .inr (.inl ⟨x, r, v, rfl, l, b, e⟩)⟩
    | nil => exact adv1 S l c c' hc.m hc.oth b e
  | run2 r d v a l l2 b e =>
    rw [a] at hs; cases hs
    cases r with
    | cons x r => exact ⟨c, .nil _, hc.m, hc.oth, .inr (.inr ⟨x, r, d, v, rfl, l, l2, b, e⟩)⟩
    | nil =>
      have p2 := pass21 S e b l
      cases d with
      | cons x d => exact ⟨_, p2, hc.m, (hc.oth.l2 _).l1 _, .inr (.inl ⟨x, d, v, by simp, l2, by simp, by simp [setR, Ne.symm S.ne]⟩)⟩
      | nil =>
        obtain ⟨f, p3, q1, q2, q3⟩ := adv1 S l2 ⟨c.M, setR (setR c.R t2 none) t1 (some [])⟩ c' hc.m ((hc.oth.l2 _).l1 _) (by simp) (by simp [setR, Ne.symm S.ne])
        exact ⟨f, p2.trans p3, q1, q2, by simpa using q3⟩

theorem loop_bwd (S : LoopS A A' t1 t2 i o) (hx : ∀ x h, x ≠ t1 → x ≠ t2 → A'.L x h → A.L x h)
    (hL : ∀ h, A'.L t1 h → ∃ d v, A.L t1 d ∧ Tail (A.L t1) (A.L t2) v ∧ h = d ++ v) : Bwd A A' i o := by
  have e1 := S.pre' t1 S.ne
  have e1' := S.post' t1 S.ne
  refine ⟨fun c' c => LoopRelU A t1 t2 c c', ⟨rfl, .refl _ _ _, rfl, .idle rfl rfl rfl⟩, ?_, ?_⟩
  · intro c' c l c1' hc s
    cases s with
    | start x u hT hn hp hLx =>
      have hx2 := ((S.T' x).1 hT).2
      by_cases hx1 : x = t1
      · subst hx1
        have hcc : c.R x = none ∧ c.R t2 = none := by
          cases hc.st with
          | idle a b e => exact ⟨b, e⟩
          | run1 r u a l b e => rw [a] at hn; cases hn
          | run2 r d v a l l2 b e => rw [a] at hn; cases hn
        obtain ⟨d, v, l1, l2, rfl⟩ := hL u hLx
        refine ⟨_, .tau (.start c x d S.T1 hcc.1 (by rw [hc.m, ← e1]; exact hp) l1) (.nil _), ?_⟩
        exact ⟨by simp [take_eq e1, hc.m], (hc.oth.l1 _).r1 _, by simp [setR, Ne.symm S.ne, hc.n2], .run1 d v (by simp) l2 (by simp) (by simp [setR, Ne.symm S.ne, hcc.2])⟩
      · have ex := S.pre' x hx2
        refine ⟨_, .tau (.start c x u ((S.T' x).1 hT).1 (by rw [hc.oth x hx1 hx2]; exact hn) (by rw [hc.m, ← ex]; exact hp) (hx x u hx1 hx2 hLx)) (.nil _), ?_⟩
        exact ⟨by simp [take_eq ex, hc.m], hc.oth.both _ _, by simp [setR, Ne.symm hx2, hc.n2],
          hc.st.congr (by simp [setR, Ne.symm hx1]) (by simp [setR, Ne.symm hx2]) (by simp [setR, Ne.symm hx1])⟩
    | emit x a u hh =>
      have hx2 : x ≠ t2 := by rintro rfl; rw [hc.n2] at hh; cases hh
      by_cases hx1 : x = t1
      · subst hx1
        obtain ⟨d, hr, hm, ho, hrd⟩ := adv S hc hh
        rcases hrd with ⟨h, _⟩ | ⟨b, r, v, e, l, f1, f2⟩ | ⟨b, r, w, v, e, l, l2, f1, f2⟩
        · cases h
        · obtain ⟨rfl, rfl⟩ := List.cons.inj e
          refine ⟨_, hr.trans (.vis (.emit d x a r f1) (.nil _)), ?_⟩
          exact ⟨hm, (ho.l1 _).r1 _, by simp [setR, Ne.symm S.ne, hc.n2], .run1 r v (by simp) l (by simp) (by simp [setR, Ne.symm S.ne, f2])⟩
        · obtain ⟨rfl, rfl⟩ := List.cons.inj e
          refine ⟨_, hr.trans (.vis (.emit d t2 a r f2) (.nil _)), ?_⟩
          exact ⟨hm, (ho.l2 _).r1 _, by simp [setR, Ne.symm S.ne, hc.n2], .run2 r w v (by simp) l l2 (by simp [setR, S.ne, f1]) (by simp)⟩
      · refine ⟨_, .vis (.emit c x _ u (by rw [hc.oth x hx1 hx2]; exact hh)) (.nil _), ?_⟩
        exact ⟨hc.m, hc.oth.both _ _, by simp [setR, Ne.symm hx2, hc.n2],
          hc.st.congr (by simp [setR, Ne.symm hx1]) (by simp [setR, Ne.symm hx2]) (by simp [setR, Ne.symm hx1])⟩
    | stop x hh =>
      have hx2 : x ≠ t2 := by rintro rfl; rw [hc.n2] at hh; cases hh
      by_cases hx1 : x = t1
      · subst hx1
        obtain ⟨d, hr, hm, ho, hrd⟩ := adv S hc hh
        rcases hrd with ⟨_, f1, f2⟩ | ⟨b, r, v, e, _⟩ | ⟨b, r, w, v, e, _⟩
        · refine ⟨_, hr.trans (.tau (.stop d x f1) (.nil _)), ?_⟩
          exact ⟨by simp [put_eq e1', hm], (ho.l1 _).r1 _, by simp [setR, Ne.symm S.ne, hc.n2], .idle (by simp) (by simp) (by simp [setR, Ne.symm S.ne, f2])⟩
        · simp at e
        · simp at e
      · refine ⟨_, .tau (.stop c x (by rw [hc.oth x hx1 hx2]; exact hh)) (.nil _), ?_⟩
        exact ⟨by simp [put_eq (S.post' x hx2), hc.m], hc.oth.both _ _, by simp [setR, Ne.symm hx2, hc.n2],
          hc.st.congr (by simp [setR, Ne.symm hx1]) (by simp [setR, Ne.symm hx2]) (by simp [setR, Ne.symm hx1])⟩
  · intro c' c hc hf
    have hcc : c.R t1 = none ∧ c.R t2 = none := by
      cases hc.st with
      | idle a b e => exact ⟨b, e⟩
      | run1 r u a l b e => have := hf.2 t1; rw [a] at this; cases this
      | run2 r d v a l l2 b e => have := hf.2 t1; rw [a] at this; cases this
    refine ⟨by rw [hc.m]; exact hf.1, fun t => ?_⟩
    by_cases h1 : t = t1
    · rw [h1]; exact hcc.1
    · by_cases h2 : t = t2
      · rw [h2]; exact hcc.2
      · rw [hc.oth t h1 h2]; exact hf.2 t

theorem loop_red (S : LoopS A A' t1 t2 i o) (hx : ∀ x, x ≠ t1 → x ≠ t2 → A'.L x = A.L x)
    (hL : A'.L t1 = Lang.loopL (A.L t1) [A.L t2]) : Red A A' i o := by
  refine red_of (loop_fwd S (fun x h a b => by rw [hx x a b]; exact id) (fun h d a b => by rw [hL]; exact a.loop (.exit b))) ?_
    (loop_bwd S (fun x h a b => by rw [hx x a b]; exact id) (fun h a => by rw [hL] at a; exact loopL_tail a))
  refine loop_fwd (t1 := t1) (t2 := t2) ⟨S.ne, S.T1, S.T2, S.ha, S.hb, S.hpre, S.hpost, S.cons, S.prod, S.hi, S.hoA, S.hoB, S.T', S.pre', S.post'⟩ ?_ ?_ <;> intros <;> trivial

end
end Verif.WfTree
