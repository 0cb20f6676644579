import Verif.WfTree.Choice
/-
C53: two transitions connected by private places can be replaced by one transition with the concatenation of the languages.
-/
set_option linter.unusedSectionVars false
namespace Verif.WfTree
open Classical
variable {α : Type}

structure Seq (A A' : ANet α) (t1 t2 i o : Nat) : Prop where
  ne : t1 ≠ t2
  T1 : A.T t1
  T2 : A.T t2
  mid : A.post t1 = A.pre t2
  hpre : ∃ p, A.pre t1 p
  hmid : ∃ p, A.post t1 p
  prod : ∀ p x, A.post t1 p → A.T x → A.post x p → x = t1
  cons : ∀ p x, A.post t1 p → A.T x → A.pre x p → x = t2
  hi : ¬ A.post t1 i
  ho : ¬ A.post t1 o
  T' : ∀ x, A'.T x ↔ A.T x ∧ x ≠ t2
  pre' : ∀ x, x ≠ t2 → A'.pre x = A.pre x
  post1 : A'.post t1 = A.post t2
  post' : ∀ x, x ≠ t1 → x ≠ t2 → A'.post x = A.post x

/-- additional tokens in the places of a set -/
noncomputable def ext (M : Nat → Nat) (S : Nat → Prop) : Nat → Nat := fun p => if S p then M p + 1 else M p

inductive SeqSt (A : ANet α) (t1 t2 : Nat) (c c' : Cfg α) : Prop
  | idle : c'.R t1 = none → c.R t1 = none → c.R t2 = none → c.M = c'.M → SeqSt A t1 t2 c c'
  | run1 (h : List α) : c'.R t1 = some h → c.R t1 = some h → c.R t2 = none → c.M = c'.M → SeqSt A t1 t2 c c'
  | mid (h : List α) : c'.R t1 = some h → A.L t1 h → c.R t1 = none → c.R t2 = none → c.M = ext c'.M (A.post t1) → SeqSt A t1 t2 c c'
  | run2 (h0 h : List α) : c'.R t1 = some (h0 ++ h) → A.L t1 h0 → c.R t1 = none → c.R t2 = some h → c.M = c'.M → SeqSt A t1 t2 c c'

structure SeqRel (A : ANet α) (t1 t2 : Nat) (c c' : Cfg α) : Prop where
  oth : Oth t1 t2 c.R c'.R
  n2 : c'.R t2 = none
  zero : ∀ p, A.post t1 p → c'.M p = 0
  st : SeqSt A t1 t2 c c'

theorem SeqSt.congr {A : ANet α} {t1 t2 : Nat} {c c' d d' : Cfg α} (h : SeqSt A t1 t2 c c') (h1 : d.R t1 = c.R t1) (h2 : d.R t2 = c.R t2)
    (h3 : d'.R t1 = c'.R t1) (h4 : c.M = c'.M → d.M = d'.M) (h5 : c.M = ext c'.M (A.post t1) → d.M = ext d'.M (A.post t1)) : SeqSt A t1 t2 d d' := by
  cases h with
  | idle a b e f => exact .idle (h3.trans a) (h1.trans b) (h2.trans e) (h4 f)
  | run1 h a b e f => exact .run1 h (h3.trans a) (h1.trans b) (h2.trans e) (h4 f)
  | mid h a l b e f => exact .mid h (h3.trans a) l (h1.trans b) (h2.trans e) (h5 f)
  | run2 h0 h a l b e f => exact .run2 h0 h (h3.trans a) l (h1.trans b) (h2.trans e) (h4 f)

theorem seq_fwd {A A' : ANet α} {t1 t2 i o : Nat} (S : Seq A A' t1 t2 i o) (hx : ∀ x h, x ≠ t1 → x ≠ t2 → A.L x h → A'.L x h)
    (hL : ∀ h g, A.L t1 h → A.L t2 g → A'.L t1 (h ++ g)) : Fwd A A' i o := by
  have e1 := S.pre' t1 S.ne
  have T1' := (S.T' t1).2 ⟨S.T1, S.ne⟩
  refine ⟨SeqRel A t1 t2, ⟨.refl _ _ _, rfl, ?_, .idle rfl rfl rfl rfl⟩, ?_, ?_, ?_⟩
  · intro p hp
    simp only [init]
    rw [if_neg]; rintro rfl; exact S.hi hp
  · intro c c' l c1 hr hs hc s
    have hs' := hs _ hr
    have n1m : ∀ p, A.pre t1 p → ¬ A.post t1 p := fun p hp hm => S.ne (S.cons p t1 hm S.T1 hp)
    have nostart : ∀ h, c'.R t1 = some h → ¬ ∀ p, A.pre t1 p → 0 < c'.M p := by
      intro h hh hp
      obtain ⟨p, hp0⟩ := S.hpre
      have := hs'.pre t1 h p hh (by rw [e1]; exact hp0)
      have := hp p hp0
      omega
    cases s with
    | start x hT hn hp =>
      by_cases hx1 : x = t1
      · subst hx1
        cases hc.st with
        | idle a b e f =>
          refine ⟨⟨A'.take x c'.M, setR c'.R x (some [])⟩, .tau (.start c' x T1' a (by rw [e1, ← f]; exact hp)) (.nil _), ?_⟩
          refine ⟨(hc.oth.l1 _).r1 _, by simp [setR, Ne.symm S.ne, hc.n2], ?_, .run1 [] (by simp) (by simp) (by simp [setR, Ne.symm S.ne, e]) (by simp [take_eq e1, f])⟩
          intro p hp
          have := hc.zero p hp
          simp [ANet.take, this]
        | run1 h a b e f => rw [b] at hn; cases hn
        | mid h a l b e f =>
          refine absurd (fun p hp' => ?_) (nostart h a)
          have := hp p hp'
          rw [f] at this
          simpa [ext, n1m p hp'] using this
        | run2 h0 h a l b e f =>
          exact absurd (by rw [← f]; exact hp) (nostart _ a)
      · by_cases hx2 : x = t2
        · subst hx2
          have mm : ∃ p, A.post t1 p ∧ A.pre x p := by
            obtain ⟨p, h⟩ := S.hmid
            exact ⟨p, h, by rw [← S.mid]; exact h⟩
          obtain ⟨p, hm, hm2⟩ := mm
          have hz := hc.zero p hm
          have hpp := hp p hm2
          cases hc.st with
          | idle a b e f => rw [f] at hpp; omega
          | run1 h a b e f => rw [f] at hpp; omega
          | run2 h0 h a l b e f => rw [f] at hpp; omega
          | mid h a l b e f =>
            refine ⟨c', .nil _, hc.oth.l2 _, hc.n2, hc.zero, .run2 h [] (by simpa using a) l (by simp [setR, S.ne, b]) (by simp) ?_⟩
            funext q
            simp only [ANet.take, f, ext, ← S.mid]
            split <;> simp
        · have ex := S.pre' x hx2
          have nm : ∀ p, A.pre x p → ¬ A.post t1 p := fun p hp hm => hx2 (S.cons p x hm hT hp)
          refine ⟨⟨A'.take x c'.M, setR c'.R x (some [])⟩, .tau (.start c' x ((S.T' x).2 ⟨hT, hx2⟩) (by rw [← hc.oth x hx1 hx2]; exact hn) ?_) (.nil _), ?_⟩
          · intro p hp'
            rw [ex] at hp'
            have := hp p hp'
            have hh := nm p hp'
            cases hc.st with
            | idle a b e f => rw [f] at this; exact this
            | run1 h a b e f => rw [f] at this; exact this
            | run2 h0 h a l b e f => rw [f] at this; exact this
            | mid h a l b e f => rw [f] at this; simpa [ext, hh] using this
          · refine ⟨hc.oth.both _ _, by simp [setR, Ne.symm hx2, hc.n2], ?_, hc.st.congr (by simp [setR, Ne.symm hx1]) (by simp [setR, Ne.symm hx2]) (by simp [setR, Ne.symm hx1]) ?_ ?_⟩
            · intro p hp
              have := hc.zero p hp
              simp [ANet.take, this]
            · intro f; simp [take_eq ex, f]
            · intro f
              funext q
              simp only [ANet.take, f, ext, ex]
              by_cases h1 : A.post t1 q
              · have : ¬ A.pre x q := fun h => nm q h h1
                simp [this]
              · simp [h1]
    | emit x ev h hh =>
      by_cases hx1 : x = t1
      · subst hx1
        cases hc.st with
        | run1 h' a b e f =>
          rw [b] at hh; cases hh
          refine ⟨_, .vis (.emit c' x _ h a) (.nil _), ?_⟩
          exact ⟨(hc.oth.l1 _).r1 _, by simp [setR, Ne.symm S.ne, hc.n2], hc.zero, .run1 (h ++ [ev]) (by simp) (by simp) (by simp [setR, Ne.symm S.ne, e]) f⟩
        | idle a b e f => rw [b] at hh; cases hh
        | mid h a l b e f => rw [b] at hh; cases hh
        | run2 h0 h a l b e f => rw [b] at hh; cases hh
      · by_cases hx2 : x = t2
        · subst hx2
          cases hc.st with
          | run2 h0 h' a l b e f =>
            rw [e] at hh; cases hh
            refine ⟨_, .vis (.emit c' t1 _ _ a) (.nil _), ?_⟩
            exact ⟨(hc.oth.l2 _).r1 _, by simp [setR, Ne.symm S.ne, hc.n2], hc.zero, .run2 h0 (h ++ [ev]) (by simp) l (by simp [setR, S.ne, b]) (by simp) f⟩
          | idle a b e f => rw [e] at hh; cases hh
          | mid h a l b e f => rw [e] at hh; cases hh
          | run1 h a b e f => rw [e] at hh; cases hh
        · refine ⟨_, .vis (.emit c' x _ h (by rw [← hc.oth x hx1 hx2]; exact hh)) (.nil _), ?_⟩
          exact ⟨hc.oth.both _ _, by simp [setR, Ne.symm hx2, hc.n2], hc.zero,
            hc.st.congr (by simp [setR, Ne.symm hx1]) (by simp [setR, Ne.symm hx2]) (by simp [setR, Ne.symm hx1]) id id⟩
    | stop x h hh hLx =>
      by_cases hx1 : x = t1
      · subst hx1
        cases hc.st with
        | run1 h' a b e f =>
          rw [b] at hh; cases hh
          refine ⟨c', .nil _, hc.oth.l1 _, hc.n2, hc.zero, .mid h a hLx (by simp) (by simp [setR, Ne.symm S.ne, e]) ?_⟩
          funext q; simp [ANet.put, ext, f]
        | idle a b e f => rw [b] at hh; cases hh
        | mid h a l b e f => rw [b] at hh; cases hh
        | run2 h0 h a l b e f => rw [b] at hh; cases hh
      · by_cases hx2 : x = t2
        · subst hx2
          cases hc.st with
          | run2 h0 h' a l b e f =>
            rw [e] at hh; cases hh
            refine ⟨_, .tau (.stop c' t1 _ a (hL h0 h l hLx)) (.nil _), ?_⟩
            refine ⟨(hc.oth.l2 _).r1 _, by simp [setR, Ne.symm S.ne, hc.n2], ?_, .idle (by simp) (by simp [setR, S.ne, b]) (by simp) (by simp [put_eq' S.post1, f])⟩
            intro p hp
            have h1 := hc.zero p hp
            have : ¬ A'.post t1 p := by
              rw [S.post1]; intro h2; exact S.ne (S.prod p x hp S.T2 h2).symm
            simp [ANet.put, this, h1]
          | idle a b e f => rw [e] at hh; cases hh
          | mid h a l b e f => rw [e] at hh; cases hh
          | run1 h a b e f => rw [e] at hh; cases hh
        · have ex := S.post' x hx1 hx2
          have hr' : c'.R x = some h := by rw [← hc.oth x hx1 hx2]; exact hh
          have hT := ((S.T' x).1 (hr.run_T hr')).1
          have nm : ∀ p, A.post t1 p → ¬ A.post x p := fun p hm hp => hx1 (S.prod p x hm hT hp)
          refine ⟨_, .tau (.stop c' x h hr' (hx x h hx1 hx2 hLx)) (.nil _), ?_⟩
          refine ⟨hc.oth.both _ _, by simp [setR, Ne.symm hx2, hc.n2], ?_, hc.st.congr (by simp [setR, Ne.symm hx1]) (by simp [setR, Ne.symm hx2]) (by simp [setR, Ne.symm hx1]) ?_ ?_⟩
          · intro p hp
            have h1 := hc.zero p hp
            have := nm p hp
            simp [ANet.put, ex, this, h1]
          · intro f; simp [put_eq ex, f]
          · intro f
            funext q
            simp only [ANet.put, f, ext, ex]
            by_cases h1 : A.post t1 q
            · have := nm q h1
              simp [this]
            · simp [h1]
  · intro c c' hr hs hc
    have hs' := hs _ hr
    have hT : ∀ t h, t ≠ t1 → t ≠ t2 → c.R t = some h → A.T t := fun t h a b e =>
      ((S.T' t).1 (hr.run_T (by rw [← hc.oth t a b]; exact e))).1
    have key : ∀ p, ¬ A.post t1 p → c.M p = c'.M p := by
      intro p hp
      cases hc.st with
      | idle a b e f => rw [f]
      | run1 h a b e f => rw [f]
      | run2 h0 h a l b e f => rw [f]
      | mid h a l b e f => rw [f]; simp [ext, hp]
    refine ⟨?_, ?_, ?_⟩
    · intro p
      by_cases hp : A.post t1 p
      · have h1 := hc.zero p hp
        cases hc.st with
        | idle a b e f => rw [f]; omega
        | run1 h a b e f => rw [f]; omega
        | run2 h0 h a l b e f => rw [f]; omega
        | mid h a l b e f => rw [f]; simp [ext, hp, h1]
      · rw [key p hp]; exact hs'.one p
    · intro t h p hh hp
      by_cases h1 : t = t1
      · subst h1
        have hm : ¬ A.post t p := fun hm => S.ne (S.cons p t hm S.T1 hp)
        rw [key p hm]
        cases hc.st with
        | run1 h' a b e f => exact hs'.pre t h' p a (by rw [e1]; exact hp)
        | idle a b e f => rw [b] at hh; cases hh
        | mid h a l b e f => rw [b] at hh; cases hh
        | run2 h0 h a l b e f => rw [b] at hh; cases hh
      · by_cases h2 : t = t2
        · subst h2
          have hm : A.post t1 p := by rw [S.mid]; exact hp
          cases hc.st with
          | run2 h0 h' a l b e f => rw [f]; exact hc.zero p hm
          | idle a b e f => rw [e] at hh; cases hh
          | mid h a l b e f => rw [e] at hh; cases hh
          | run1 h a b e f => rw [e] at hh; cases hh
        · have hm : ¬ A.post t1 p := fun hm => h2 (S.cons p t hm (hT t h h1 h2 hh) hp)
          rw [key p hm]
          exact hs'.pre t h p (by rw [← hc.oth t h1 h2]; exact hh) (by rw [S.pre' t h2]; exact hp)
    · intro t h p hh hp
      by_cases h1 : t = t1
      · subst h1
        cases hc.st with
        | run1 h' a b e f => rw [f]; exact hc.zero p hp
        | idle a b e f => rw [b] at hh; cases hh
        | mid h a l b e f => rw [b] at hh; cases hh
        | run2 h0 h a l b e f => rw [b] at hh; cases hh
      · by_cases h2 : t = t2
        · subst h2
          have hm : ¬ A.post t1 p := fun hm => S.ne (S.prod p t hm S.T2 hp).symm
          rw [key p hm]
          cases hc.st with
          | run2 h0 h' a l b e f => exact hs'.post t1 _ p a (by rw [S.post1]; exact hp)
          | idle a b e f => rw [e] at hh; cases hh
          | mid h a l b e f => rw [e] at hh; cases hh
          | run1 h a b e f => rw [e] at hh; cases hh
        · have hm : ¬ A.post t1 p := fun hm => h1 (S.prod p t hm (hT t h h1 h2 hh) hp)
          rw [key p hm]
          exact hs'.post t h p (by rw [← hc.oth t h1 h2]; exact hh) (by rw [S.post' t h1 h2]; exact hp)
  · intro c c' _ _ hc hf
    have hidle : c'.R t1 = none ∧ c.M = c'.M := by
      cases hc.st with
      | idle a b e f => exact ⟨a, f⟩
      | run1 h a b e f => have := hf.2 t1; rw [b] at this; cases this
      | run2 h0 h a l b e f => have := hf.2 t2; rw [e] at this; cases this
      | mid h a l b e f =>
        exfalso
        obtain ⟨p, hp⟩ := S.hmid
        have h1 := hf.1 p
        rw [if_neg (by rintro rfl; exact S.ho hp), f] at h1
        simp [ext, hp] at h1
    refine ⟨by rw [← hidle.2]; exact hf.1, fun t => ?_⟩
    by_cases h1 : t = t1
    · rw [h1]; exact hidle.1
    · by_cases h2 : t = t2
      · rw [h2]; exact hc.n2
      · rw [← hc.oth t h1 h2]; exact hf.2 t

inductive SeqStU (A : ANet α) (t1 t2 : Nat) (c c' : Cfg α) : Prop
  | idle : c'.R t1 = none → c.R t1 = none → c.R t2 = none → SeqStU A t1 t2 c c'
  | run1 (r u : List α) : c'.R t1 = some (r ++ u) → A.L t2 u → c.R t1 = some r → c.R t2 = none → SeqStU A t1 t2 c c'
  | run2 (r : List α) : c'.R t1 = some r → c.R t1 = none → c.R t2 = some r → SeqStU A t1 t2 c c'

structure SeqRelU (A : ANet α) (t1 t2 : Nat) (c c' : Cfg α) : Prop where
  m : c.M = c'.M
  oth : Oth t1 t2 c.R c'.R
  n2 : c'.R t2 = none
  st : SeqStU A t1 t2 c c'

theorem SeqStU.congr {A : ANet α} {t1 t2 : Nat} {c c' d d' : Cfg α} (h : SeqStU A t1 t2 c c') (h1 : d.R t1 = c.R t1) (h2 : d.R t2 = c.R t2)
    (h3 : d'.R t1 = c'.R t1) : SeqStU A t1 t2 d d' := by
  cases h with
  | idle a b e => exact .idle (h3.trans a) (h1.trans b) (h2.trans e)
  | run1 r u a l b e => exact .run1 r u (h3.trans a) l (h1.trans b) (h2.trans e)
  | run2 r a b e => exact .run2 r (h3.trans a) (h1.trans b) (h2.trans e)

/-- the silent steps from the end of `t1` to the start of `t2` -/
theorem seq_pass {A A' : ANet α} {t1 t2 i o : Nat} (S : Seq A A' t1 t2 i o) {c c' : Cfg α} (hc : SeqRelU A t1 t2 c c') {r : List α}
    (h : c'.R t1 = some r) : (∃ a r1 u, r = a :: r1 ++ u ∧ A.L t2 u ∧ c.R t1 = some (a :: r1) ∧ c.R t2 = none) ∨
    ∃ d, Run (StepU A) c [] d ∧ SeqRelU A t1 t2 d c' ∧ d.R t1 = none ∧ d.R t2 = some r := by
  cases hc.st with
  | idle a b e => rw [a] at h; cases h
  | run2 r' a b e => rw [a] at h; cases h; exact .inr ⟨c, .nil _, hc, b, e⟩
  | run1 r1 u a l b e =>
    rw [a] at h; cases h
    cases r1 with
    | cons x r1 => exact .inl ⟨x, r1, u, rfl, l, b, e⟩
    | nil =>
      refine .inr ⟨⟨c.M, setR (setR c.R t1 none) t2 (some u)⟩, ?_, ⟨hc.m, (hc.oth.l1 _).l2 _, hc.n2, .run2 u (by simpa using a) (by simp [setR, S.ne]) (by simp)⟩,
        by simp [setR, S.ne], by simp⟩
      refine .tau (.stop c t1 b) (.tau (.start _ t2 u S.T2 (by simp [setR, Ne.symm S.ne, e]) ?_ l) ?_)
      · intro p hp
        rw [← S.mid] at hp
        simp [ANet.put, hp]
      · have : A.take t2 (A.put t1 c.M) = c.M := by
          funext q
          simp only [ANet.take, ANet.put, ← S.mid]
          split <;> simp
        rw [this]
        exact .nil _

theorem seq_bwd {A A' : ANet α} {t1 t2 i o : Nat} (S : Seq A A' t1 t2 i o) (hx : ∀ x h, x ≠ t1 → x ≠ t2 → A'.L x h → A.L x h)
    (hL : ∀ h, A'.L t1 h → ∃ r u, h = r ++ u ∧ A.L t1 r ∧ A.L t2 u) : Bwd A A' i o := by
  have e1 := S.pre' t1 S.ne
  refine ⟨fun c' c => SeqRelU A t1 t2 c c', ⟨rfl, .refl _ _ _, rfl, .idle rfl rfl rfl⟩, ?_, ?_⟩
  · intro c' c l c1' hc s
    cases s with
    | start x u hT hn hp hLx =>
      have hx2 := ((S.T' x).1 hT).2
      by_cases hx1 : x = t1
      · subst hx1
        have hcc : c.R x = none ∧ c.R t2 = none := by
          cases hc.st with
          | idle a b e => exact ⟨b, e⟩
          | run1 r u a l b e => rw [a] at hn; cases hn
          | run2 r a b e => rw [a] at hn; cases hn
        obtain ⟨r, u', rfl, l1, l2⟩ := hL u hLx
        refine ⟨_, .tau (.start c x r S.T1 hcc.1 (by rw [hc.m, ← e1]; exact hp) l1) (.nil _), ?_⟩
        exact ⟨by simp [take_eq e1, hc.m], (hc.oth.l1 _).r1 _, by simp [setR, Ne.symm S.ne, hc.n2], .run1 r u' (by simp) l2 (by simp) (by simp [setR, Ne.symm S.ne, hcc.2])⟩
      · have ex := S.pre' x hx2
        refine ⟨_, .tau (.start c x u ((S.T' x).1 hT).1 (by rw [hc.oth x hx1 hx2]; exact hn) (by rw [hc.m, ← ex]; exact hp) (hx x u hx1 hx2 hLx)) (.nil _), ?_⟩
        exact ⟨by simp [take_eq ex, hc.m], hc.oth.both _ _, by simp [setR, Ne.symm hx2, hc.n2],
          hc.st.congr (by simp [setR, Ne.symm hx1]) (by simp [setR, Ne.symm hx2]) (by simp [setR, Ne.symm hx1])⟩
    | emit x a u hh =>
      have hx2 : x ≠ t2 := by rintro rfl; rw [hc.n2] at hh; cases hh
      by_cases hx1 : x = t1
      · subst hx1
        rcases seq_pass S hc hh with ⟨b, r1, u', e, l2, f1, f2⟩ | ⟨d, hr, hc2, f1, f2⟩
        · obtain ⟨rfl, rfl⟩ := List.cons.inj e
          refine ⟨_, .vis (.emit c x a r1 f1) (.nil _), ?_⟩
          exact ⟨hc.m, (hc.oth.l1 _).r1 _, by simp [setR, Ne.symm S.ne, hc.n2], .run1 r1 u' (by simp) l2 (by simp) (by simp [setR, Ne.symm S.ne, f2])⟩
        · refine ⟨_, hr.trans (.vis (.emit d t2 a u f2) (.nil _)), ?_⟩
          exact ⟨hc2.m, (hc2.oth.l2 _).r1 _, by simp [setR, Ne.symm S.ne, hc.n2], .run2 u (by simp) (by simp [setR, S.ne, f1]) (by simp)⟩
      · refine ⟨_, .vis (.emit c x _ u (by rw [hc.oth x hx1 hx2]; exact hh)) (.nil _), ?_⟩
        exact ⟨hc.m, hc.oth.both _ _, by simp [setR, Ne.symm hx2, hc.n2],
          hc.st.congr (by simp [setR, Ne.symm hx1]) (by simp [setR, Ne.symm hx2]) (by simp [setR, Ne.symm hx1])⟩
    | stop x hh =>
      have hx2 : x ≠ t2 := by rintro rfl; rw [hc.n2] at hh; cases hh
      by_cases hx1 : x = t1
      · subst hx1
        rcases seq_pass S hc hh with ⟨b, r1, u', e, l2, f1, f2⟩ | ⟨d, hr, hc2, f1, f2⟩
        · simp at e
        · refine ⟨_, hr.trans (.tau (.stop d t2 f2) (.nil _)), ?_⟩
          exact ⟨by simp [put_eq' S.post1, hc2.m], (hc2.oth.l2 _).r1 _, by simp [setR, Ne.symm S.ne, hc.n2], .idle (by simp) (by simp [setR, S.ne, f1]) (by simp)⟩
      · refine ⟨_, .tau (.stop c x (by rw [hc.oth x hx1 hx2]; exact hh)) (.nil _), ?_⟩
        exact ⟨by simp [put_eq (S.post' x hx1 hx2), hc.m], hc.oth.both _ _, by simp [setR, Ne.symm hx2, hc.n2],
          hc.st.congr (by simp [setR, Ne.symm hx1]) (by simp [setR, Ne.symm hx2]) (by simp [setR, Ne.symm hx1])⟩
  · intro c' c hc hf
    have hcc : c.R t1 = none ∧ c.R t2 = none := by
      cases hc.st with
      | idle a b e => exact ⟨b, e⟩
      | run1 r u a l b e => have := hf.2 t1; rw [a] at this; cases this
      | run2 r a b e => have := hf.2 t1; rw [a] at this; cases this
    refine ⟨by rw [hc.m]; exact hf.1, fun t => ?_⟩
    by_cases h1 : t = t1
    · rw [h1]; exact hcc.1
    · by_cases h2 : t = t2
      · rw [h2]; exact hcc.2
      · rw [hc.oth t h1 h2]; exact hf.2 t

theorem seq_red {A A' : ANet α} {t1 t2 i o : Nat} (S : Seq A A' t1 t2 i o) (hx : ∀ x, x ≠ t1 → x ≠ t2 → A'.L x = A.L x)
    (hL : A'.L t1 = Lang.seqL [A.L t1, A.L t2]) : Red A A' i o := by
  have e : A'.L t1 = Lang.cat (A.L t1) (A.L t2) := by rw [hL]; simp [Lang.seqL, Lang.cat_eps_right]
  refine red_of (seq_fwd S (fun x h a b => by rw [hx x a b]; exact id) (fun h g a b => by rw [e]; exact ⟨h, g, a, b, rfl⟩)) ?_
    (seq_bwd S (fun x h a b => by rw [hx x a b]; exact id) (fun h a => by
      rw [e] at a
      obtain ⟨r, u, a, b, c⟩ := a
      exact ⟨r, u, c, a, b⟩))
  refine seq_fwd (t1 := t1) (t2 := t2) ⟨S.ne, S.T1, S.T2, S.mid, S.hpre, S.hmid, S.prod, S.cons, S.hi, S.ho, S.T', S.pre', S.post1, S.post'⟩ ?_ ?_ <;> intros <;> trivial

end Verif.WfTree
