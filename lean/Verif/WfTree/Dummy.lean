import Verif.WfTree.Loop
/-
C53: a place can be split into two places connected by a silent transition.
-/
set_option linter.unusedSectionVars false
namespace Verif.WfTree
open Classical
variable {α : Type}

structure Dummy (A A' : ANet α) (p sp tp k i o : Nat) : Prop where
  pi : p ≠ i
  po : p ≠ o
  ne1 : sp ≠ tp
  ne2 : sp ≠ p
  ne3 : tp ≠ p
  fresh_s : ∀ x, A.T x → ¬ A.pre x sp ∧ ¬ A.post x sp
  fresh_t : ∀ x, A.T x → ¬ A.pre x tp ∧ ¬ A.post x tp
  si : sp ≠ i
  so : sp ≠ o
  ti : tp ≠ i
  to : tp ≠ o
  kT : ¬ A.T k
  T' : ∀ x, A'.T x ↔ A.T x ∨ x = k
  prek : ∀ q, A'.pre k q ↔ q = sp
  postk : ∀ q, A'.post k q ↔ q = tp
  pre' : ∀ x q, A.T x → (A'.pre x q ↔ (q ≠ p ∧ q ≠ tp ∧ A.pre x q) ∨ (q = tp ∧ A.pre x p))
  post' : ∀ x q, A.T x → (A'.post x q ↔ (q ≠ p ∧ q ≠ sp ∧ A.post x q) ∨ (q = sp ∧ A.post x p))

section
variable {A A' : ANet α} {p sp tp k i o : Nat}

theorem Dummy.pre_p (S : Dummy A A' p sp tp k i o) {x : Nat} (h : A.T x) : ¬ A'.pre x p := by
  rw [S.pre' x p h]; rintro (⟨h, _⟩ | ⟨h, _⟩)
  · exact h rfl
  · exact S.ne3 h.symm
theorem Dummy.post_p (S : Dummy A A' p sp tp k i o) {x : Nat} (h : A.T x) : ¬ A'.post x p := by
  rw [S.post' x p h]; rintro (⟨h, _⟩ | ⟨h, _⟩)
  · exact h rfl
  · exact S.ne2 h.symm
theorem Dummy.pre_sp (S : Dummy A A' p sp tp k i o) {x : Nat} (h : A.T x) : ¬ A'.pre x sp := by
  rw [S.pre' x sp h]; rintro (⟨_, _, h1⟩ | ⟨h1, _⟩)
  · exact (S.fresh_s x h).1 h1
  · exact S.ne1 h1
theorem Dummy.post_tp (S : Dummy A A' p sp tp k i o) {x : Nat} (h : A.T x) : ¬ A'.post x tp := by
  rw [S.post' x tp h]; rintro (⟨_, _, h1⟩ | ⟨h1, _⟩)
  · exact (S.fresh_t x h).2 h1
  · exact S.ne1 h1.symm
theorem Dummy.pre_tp (S : Dummy A A' p sp tp k i o) {x : Nat} (h : A.T x) : A'.pre x tp ↔ A.pre x p := by
  rw [S.pre' x tp h]
  constructor
  · rintro (⟨_, h2, h1⟩ | ⟨h1, h2⟩)
    · exact absurd rfl h2
    · exact h2
  · intro h; exact .inr ⟨rfl, h⟩
theorem Dummy.post_sp (S : Dummy A A' p sp tp k i o) {x : Nat} (h : A.T x) : A'.post x sp ↔ A.post x p := by
  rw [S.post' x sp h]
  constructor
  · rintro (⟨_, h2, h1⟩ | ⟨h1, h2⟩)
    · exact absurd rfl h2
    · exact h2
  · intro h; exact .inr ⟨rfl, h⟩
theorem Dummy.pre_o (S : Dummy A A' p sp tp k i o) {x q : Nat} (h : A.T x) (h1 : q ≠ p) (h3 : q ≠ tp) : A'.pre x q ↔ A.pre x q := by
  rw [S.pre' x q h]
  constructor
  · rintro (⟨_, h2, h1⟩ | ⟨h1, h2⟩)
    · exact h1
    · exact absurd h1 h3
  · intro h; exact .inl ⟨h1, h3, h⟩
theorem Dummy.post_o (S : Dummy A A' p sp tp k i o) {x q : Nat} (h : A.T x) (h1 : q ≠ p) (h3 : q ≠ sp) : A'.post x q ↔ A.post x q := by
  rw [S.post' x q h]
  constructor
  · rintro (⟨_, h2, h1⟩ | ⟨h1, h2⟩)
    · exact h1
    · exact absurd h1 h3
  · intro h; exact .inl ⟨h1, h3, h⟩

structure DumRel (p sp tp k : Nat) (c c' : Cfg α) : Prop where
  oth : ∀ x, x ≠ k → c.R x = c'.R x
  ck : c.R k = none
  k' : c'.R k = none
  q : ∀ q, q ≠ p → q ≠ sp → q ≠ tp → c'.M q = c.M q
  htp : c'.M tp = c.M p
  hsp : c'.M sp = 0
  p' : c'.M p = 0
  s0 : c.M sp = 0
  t0 : c.M tp = 0

theorem dum_fwd (S : Dummy A A' p sp tp k i o) (hx : ∀ x h, A.T x → A.L x h → A'.L x h) (hk : A'.L k []) : Fwd A A' i o := by
  refine ⟨DumRel p sp tp k, ?_, ?_, ?_, ?_⟩
  · constructor <;> simp [init, S.pi, S.si, S.ti]
  · intro c c' l c1 hr hs hc s
    have hT' : ∀ {x h}, c.R x = some h → x ≠ k ∧ A.T x := by
      intro x h hh
      have hne : x ≠ k := by rintro rfl; rw [hc.ck] at hh; cases hh
      have := hr.run_T (t := x) (u := h) (by rw [← hc.oth x hne]; exact hh)
      exact ⟨hne, ((S.T' x).1 this).resolve_right hne⟩
    cases s with
    | start x hT hn hp =>
      have hxk : x ≠ k := by rintro rfl; exact S.kT hT
      refine ⟨_, .tau (.start c' x ((S.T' x).2 (.inl hT)) (by rw [← hc.oth x hxk]; exact hn) ?_) (.nil _), ?_⟩
      · intro q hq
        by_cases h1 : q = p
        · subst h1; exact absurd hq (S.pre_p hT)
        · by_cases h2 : q = tp
          · subst h2
            rw [hc.htp]; exact hp p ((S.pre_tp hT).1 hq)
          · by_cases h3 : q = sp
            · subst h3; exact absurd hq (S.pre_sp hT)
            · rw [hc.q q h1 h3 h2]; exact hp q ((S.pre_o hT h1 h2).1 hq)
      · refine ⟨?_, by simp [setR, Ne.symm hxk, hc.ck], by simp [setR, Ne.symm hxk, hc.k'], ?_, ?_, ?_, ?_, ?_, ?_⟩
        · intro y hy
          simp only [setR]; split
          · rfl
          · exact hc.oth y hy
        · intro q h1 h2 h3
          simp only [ANet.take, S.pre_o hT h1 h3, hc.q q h1 h2 h3]
        · simp only [ANet.take, S.pre_tp hT, hc.htp]
        · simp [ANet.take, hc.hsp]
        · simp [ANet.take, hc.p']
        · simp [ANet.take, hc.s0]
        · simp [ANet.take, hc.t0]
    | emit x ev h hh =>
      obtain ⟨hxk, hT⟩ := hT' hh
      refine ⟨_, .vis (.emit c' x _ h (by rw [← hc.oth x hxk]; exact hh)) (.nil _), ?_⟩
      refine ⟨?_, by simp [setR, Ne.symm hxk, hc.ck], by simp [setR, Ne.symm hxk, hc.k'], hc.q, hc.htp, hc.hsp, hc.p', hc.s0, hc.t0⟩
      intro y hy
      simp only [setR]; split
      · rfl
      · exact hc.oth y hy
    | stop x h hh hLx =>
      obtain ⟨hxk, hT⟩ := hT' hh
      have s1 : StepH A' c' none ⟨A'.put x c'.M, setR c'.R x none⟩ := .stop c' x h (by rw [← hc.oth x hxk]; exact hh) (hx x h hT hLx)
      have oth : ∀ y, y ≠ k → setR c.R x none y = setR c'.R x none y := by
        intro y hy
        simp only [setR]; split
        · rfl
        · exact hc.oth y hy
      have s0 : (A.put x c.M) sp = 0 := by simp [ANet.put, (S.fresh_s x hT).2, hc.s0]
      have t0 : (A.put x c.M) tp = 0 := by simp [ANet.put, (S.fresh_t x hT).2, hc.t0]
      by_cases hxp : A.post x p
      · refine ⟨⟨A'.put k (A'.take k (A'.put x c'.M)), setR (setR (setR c'.R x none) k (some [])) k none⟩,
          .tau s1 (.tau (.start _ k ((S.T' k).2 (.inr rfl)) (by simp [setR, Ne.symm hxk, hc.k']) ?_) (.tau (.stop _ k [] (by simp) hk) (.nil _))), ?_⟩
        · intro q hq
          rw [S.prek] at hq
          subst hq
          simp [ANet.put, (S.post_sp hT).2 hxp]
        · refine ⟨fun y hy => ?_, by simp [setR, Ne.symm hxk, hc.ck], by simp, ?_, ?_, ?_, ?_, s0, t0⟩
          · show setR c.R x none y = setR (setR (setR c'.R x none) k (some [])) k none y
            rw [oth y hy, setR_ne _ _ hy, setR_ne _ _ hy]
          · intro q h1 h2 h3
            simp only [ANet.put, ANet.take, S.prek, S.postk, if_neg h2, if_neg h3, S.post_o hT h1 h2, hc.q q h1 h2 h3]
          · simp only [ANet.put, ANet.take, S.prek, S.postk, if_neg (Ne.symm S.ne1), if_pos, if_neg (S.post_tp hT), if_pos hxp, hc.htp]
          · simp only [ANet.put, ANet.take, S.prek, S.postk, if_neg S.ne1, if_pos, if_pos ((S.post_sp hT).2 hxp), hc.hsp]
          · simp only [ANet.put, ANet.take, S.prek, S.postk, if_neg (Ne.symm S.ne2), if_neg (Ne.symm S.ne3), if_neg (S.post_p hT), hc.p']
      · refine ⟨_, .tau s1 (.nil _), ?_⟩
        refine ⟨oth, by simp [setR, Ne.symm hxk, hc.ck], by simp [setR, Ne.symm hxk, hc.k'], ?_, ?_, ?_, ?_, s0, t0⟩
        · intro q h1 h2 h3
          simp only [ANet.put, S.post_o hT h1 h2, hc.q q h1 h2 h3]
        · simp only [ANet.put, if_neg (S.post_tp hT), if_neg hxp, hc.htp]
        · have : ¬ A'.post x sp := by rw [S.post_sp hT]; exact hxp
          simp only [ANet.put, if_neg this, hc.hsp]
        · simp only [ANet.put, if_neg (S.post_p hT), hc.p']
  · intro c c' hr hs hc
    have hs' := hs _ hr
    have hT' : ∀ {x h}, c.R x = some h → x ≠ k ∧ A.T x ∧ c'.R x = some h := by
      intro x h hh
      have hne : x ≠ k := by rintro rfl; rw [hc.ck] at hh; cases hh
      have h1 : c'.R x = some h := by rw [← hc.oth x hne]; exact hh
      exact ⟨hne, ((S.T' x).1 (hr.run_T h1)).resolve_right hne, h1⟩
    refine ⟨?_, ?_, ?_⟩
    · intro q
      by_cases h1 : q = p
      · subst h1; rw [← hc.htp]; exact hs'.one _
      · by_cases h2 : q = sp
        · subst h2; rw [hc.s0]; omega
        · by_cases h3 : q = tp
          · subst h3; rw [hc.t0]; omega
          · rw [← hc.q q h1 h2 h3]; exact hs'.one _
    · intro x h q hh hq
      obtain ⟨hxk, hT, hr'⟩ := hT' hh
      by_cases h1 : q = p
      · subst h1; rw [← hc.htp]; exact hs'.pre x h _ hr' ((S.pre_tp hT).2 hq)
      · by_cases h2 : q = sp
        · subst h2; exact hc.s0
        · by_cases h3 : q = tp
          · subst h3; exact hc.t0
          · rw [← hc.q q h1 h2 h3]; exact hs'.pre x h _ hr' ((S.pre_o hT h1 h3).2 hq)
    · intro x h q hh hq
      obtain ⟨hxk, hT, hr'⟩ := hT' hh
      by_cases h1 : q = p
      · subst h1
        -- the transition stops and the silent transition starts
        have r1 : Reach A' i ⟨A'.put x c'.M, setR c'.R x none⟩ := hr.step (.stop (A := A'.free) c' x h hr' trivial)
        have r2 := r1.step (.start (A := A'.free) _ k ((S.T' k).2 (.inr rfl)) (by simp [setR, Ne.symm hxk, hc.k']) (by
          intro q' hq'
          have hq' : q' = sp := (S.prek q').1 hq'
          subst hq'
          simp [ANet.put, (S.post_sp hT).2 hq]))
        have := (hs _ r2).post k [] tp (by simp) ((S.postk tp).2 rfl)
        have e : A'.free.take k (A'.put x c'.M) tp = c'.M tp := by
          have h1 : ¬ A'.pre k tp := by rw [S.prek]; exact Ne.symm S.ne1
          simp [ANet.take, ANet.put, ANet.free, h1, S.post_tp hT]
        rw [← hc.htp, ← e]; exact this
      · by_cases h2 : q = sp
        · subst h2; exact hc.s0
        · by_cases h3 : q = tp
          · subst h3; exact hc.t0
          · rw [← hc.q q h1 h2 h3]; exact hs'.post x h _ hr' ((S.post_o hT h1 h2).2 hq)
  · intro c c' _ _ hc hf
    refine ⟨fun q => ?_, fun t => ?_⟩
    · by_cases h1 : q = p
      · subst h1; rw [hc.p', if_neg S.po]
      · by_cases h2 : q = sp
        · subst h2; rw [hc.hsp, if_neg S.so]
        · by_cases h3 : q = tp
          · subst h3; rw [hc.htp, if_neg S.to]
            have := hf.1 p
            rw [if_neg S.po] at this; exact this
          · rw [hc.q q h1 h2 h3]; exact hf.1 q
    · by_cases h : t = k
      · rw [h]; exact hc.k'
      · rw [← hc.oth t h]; exact hf.2 t

structure DumRelU (A : ANet α) (p sp tp k : Nat) (c c' : Cfg α) : Prop where
  oth : ∀ x, x ≠ k → c.R x = c'.R x
  oT : ∀ x h, c.R x = some h → A.T x
  ck : c.R k = none
  q : ∀ q, q ≠ p → q ≠ sp → q ≠ tp → c.M q = c'.M q
  cp : (c'.R k = none ∧ c.M p = c'.M sp + c'.M tp) ∨ (c'.R k = some [] ∧ c.M p = c'.M sp + c'.M tp + 1)
  s0 : c.M sp = 0
  t0 : c.M tp = 0
  p0 : c'.M p = 0

theorem dum_bwd (S : Dummy A A' p sp tp k i o) (hx : ∀ x h, A.T x → A'.L x h → A.L x h) (hk : ∀ h, A'.L k h → h = []) : Bwd A A' i o := by
  refine ⟨fun c' c => DumRelU A p sp tp k c c', ?_, ?_, ?_⟩
  · constructor <;> simp [init, S.pi, S.si, S.ti]
  · intro c' c l c1' hc s
    cases s with
    | start x u hT hn hp hLx =>
      by_cases hxk : x = k
      · subst hxk
        have hu := hk u hLx
        subst hu
        refine ⟨c, .nil _, ?_⟩
        refine ⟨?_, hc.oT, hc.ck, ?_, .inr ⟨by simp, ?_⟩, hc.s0, hc.t0, by simp [ANet.take, hc.p0]⟩
        · intro y hy; simp [setR, hy]; exact hc.oth y hy
        · intro q h1 h2 h3; simp [ANet.take, S.prek, h2]; exact hc.q q h1 h2 h3
        · have := hp sp ((S.prek sp).2 rfl)
          simp only [ANet.take, S.prek, if_pos, if_neg (Ne.symm S.ne1)]
          rcases hc.cp with ⟨_, h⟩ | ⟨h, _⟩
          · omega
          · rw [hn] at h; cases h
      · have hT := ((S.T' x).1 hT).resolve_right hxk
        refine ⟨_, .tau (.start c x u hT (by rw [hc.oth x hxk]; exact hn) ?_ (hx x u hT hLx)) (.nil _), ?_⟩
        · intro q hq
          by_cases h1 : q = p
          · subst h1
            have := hp tp ((S.pre_tp hT).2 hq)
            rcases hc.cp with ⟨_, h⟩ | ⟨_, h⟩ <;> omega
          · by_cases h2 : q = sp
            · subst h2; exact absurd hq (S.fresh_s x hT).1
            · by_cases h3 : q = tp
              · subst h3; exact absurd hq (S.fresh_t x hT).1
              · rw [hc.q q h1 h2 h3]; exact hp q ((S.pre_o hT h1 h3).2 hq)
        · refine ⟨?_, ?_, by simp [setR, Ne.symm hxk, hc.ck], ?_, ?_, by simp [ANet.take, hc.s0], by simp [ANet.take, hc.t0], by simp [ANet.take, hc.p0]⟩
          · intro y hy
            simp only [setR]; split
            · rfl
            · exact hc.oth y hy
          · intro y h hy
            by_cases e : y = x
            · subst e; exact hT
            · simp [setR, e] at hy; exact hc.oT y h hy
          · intro q h1 h2 h3
            simp only [ANet.take, S.pre_o hT h1 h3, hc.q q h1 h2 h3]
          · have e1 : (A'.take x c'.M) sp = c'.M sp := by simp [ANet.take, S.pre_sp hT]
            have e2 : (A.take x c.M p = c'.M sp + A'.take x c'.M tp + (c.M p - (c'.M sp + c'.M tp))) := by
              simp only [ANet.take, S.pre_tp hT]
              split
              · have := hp tp ((S.pre_tp hT).2 (by assumption))
                rcases hc.cp with ⟨_, h⟩ | ⟨_, h⟩ <;> omega
              · rcases hc.cp with ⟨_, h⟩ | ⟨_, h⟩ <;> omega
            simp only [setR_ne _ _ (Ne.symm hxk), e1, e2]
            rcases hc.cp with ⟨h', h⟩ | ⟨h', h⟩
            · exact .inl ⟨h', by omega⟩
            · exact .inr ⟨h', by omega⟩
    | emit x a u hh =>
      have hxk : x ≠ k := by
        rintro rfl
        rcases hc.cp with ⟨h, _⟩ | ⟨h, _⟩ <;> rw [h] at hh <;> cases hh
      have hcx : c.R x = some (a :: u) := by rw [hc.oth x hxk]; exact hh
      refine ⟨_, .vis (.emit c x _ u hcx) (.nil _), ?_⟩
      refine ⟨?_, ?_, by simp [setR, Ne.symm hxk, hc.ck], hc.q, by simp only [setR_ne _ _ (Ne.symm hxk)]; exact hc.cp, hc.s0, hc.t0, hc.p0⟩
      · intro y hy
        simp only [setR]; split
        · rfl
        · exact hc.oth y hy
      · intro y h hy
        by_cases e : y = x
        · subst e; exact hc.oT _ _ hcx
        · simp [setR, e] at hy; exact hc.oT y h hy
    | stop x hh =>
      by_cases hxk : x = k
      · subst hxk
        refine ⟨c, .nil _, ?_⟩
        refine ⟨?_, hc.oT, hc.ck, ?_, .inl ⟨by simp, ?_⟩, hc.s0, hc.t0, ?_⟩
        · intro y hy; simp [setR, hy]; exact hc.oth y hy
        · intro q h1 h2 h3; simp [ANet.put, S.postk, h3]; exact hc.q q h1 h2 h3
        · simp only [ANet.put, S.postk, if_pos, if_neg S.ne1]
          rcases hc.cp with ⟨h, _⟩ | ⟨_, h⟩
          · rw [hh] at h; cases h
          · omega
        · simp [ANet.put, S.postk, Ne.symm S.ne3, hc.p0]
      · have hcx : c.R x = some [] := by rw [hc.oth x hxk]; exact hh
        have hT := hc.oT _ _ hcx
        refine ⟨_, .tau (.stop c x hcx) (.nil _), ?_⟩
        refine ⟨?_, ?_, by simp [setR, Ne.symm hxk, hc.ck], ?_, ?_, by simp [ANet.put, (S.fresh_s x hT).2, hc.s0], by simp [ANet.put, (S.fresh_t x hT).2, hc.t0],
          by simp [ANet.put, S.post_p hT, hc.p0]⟩
        · intro y hy
          simp only [setR]; split
          · rfl
          · exact hc.oth y hy
        · intro y h hy
          by_cases e : y = x
          · subst e; simp at hy
          · simp [setR, e] at hy; exact hc.oT y h hy
        · intro q h1 h2 h3
          simp only [ANet.put, S.post_o hT h1 h2, hc.q q h1 h2 h3]
        · have e1 : (A'.put x c'.M) tp = c'.M tp := by simp [ANet.put, S.post_tp hT]
          have e2 : (A.put x c.M p = A'.put x c'.M sp + c'.M tp + (c.M p - (c'.M sp + c'.M tp))) := by
            simp only [ANet.put, S.post_sp hT]
            split <;> rcases hc.cp with ⟨_, h⟩ | ⟨_, h⟩ <;> omega
          simp only [setR_ne _ _ (Ne.symm hxk), e1, e2]
          rcases hc.cp with ⟨h', h⟩ | ⟨h', h⟩
          · exact .inl ⟨h', by omega⟩
          · exact .inr ⟨h', by omega⟩
  · intro c' c hc hf
    refine ⟨fun q => ?_, fun t => ?_⟩
    · by_cases h1 : q = p
      · subst h1
        rw [if_neg S.po]
        have h1 := hf.1 sp
        have h2 := hf.1 tp
        rw [if_neg S.so] at h1
        rw [if_neg S.to] at h2
        rcases hc.cp with ⟨_, h⟩ | ⟨h, _⟩
        · omega
        · have := hf.2 k; rw [h] at this; cases this
      · by_cases h2 : q = sp
        · subst h2; rw [hc.s0, if_neg S.so]
        · by_cases h3 : q = tp
          · subst h3; rw [hc.t0, if_neg S.to]
          · rw [hc.q q h1 h2 h3]; exact hf.1 q
    · by_cases h : t = k
      · rw [h]; exact hc.ck
      · rw [hc.oth t h]; exact hf.2 t

theorem dum_red (S : Dummy A A' p sp tp k i o) (hx : ∀ x, A.T x → A'.L x = A.L x) (hk : A'.L k = Lang.eps) : Red A A' i o := by
  refine red_of (dum_fwd S (fun x h a => by rw [hx x a]; exact id) (by rw [hk]; rfl)) ?_
    (dum_bwd S (fun x h a => by rw [hx x a]; exact id) (fun h a => by rw [hk] at a; exact a))
  refine dum_fwd (p := p) (sp := sp) (tp := tp) (k := k) ⟨S.pi, S.po, S.ne1, S.ne2, S.ne3, S.fresh_s, S.fresh_t, S.si, S.so, S.ti, S.to, S.kT, S.T', S.prek, S.postk, S.pre', S.post'⟩ ?_ ?_ <;> intros <;> trivial

end
end Verif.WfTree
