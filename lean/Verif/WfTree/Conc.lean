import Verif.WfTree.Sequence
/-
C53: two transitions that are always enabled together and whose results are always consumed together can be replaced by one
transition with the interleaving of the languages.
-/
set_option linter.unusedSectionVars false
namespace Verif.WfTree
open Classical
variable {α : Type}

structure Conc (A A' : ANet α) (ch : Bool → Nat) (i : Nat) : Prop where
  ne : ∀ b, ch b ≠ ch !b
  T : ∀ b, A.T (ch b)
  hpre : ∀ b, ∃ p, A.pre (ch b) p
  hpost : ∀ b, ∃ p, A.post (ch b) p
  cons : ∀ b p x, A.pre (ch b) p → A.T x → A.pre x p → x = ch b
  prod : ∀ b p x, A.post (ch b) p → A.T x → A.post x p → x = ch b
  sprod : ∀ b b' p q x, A.pre (ch b) p → A.pre (ch b') q → A.T x → A.post x p → A.post x q
  scons : ∀ b b' p q x, A.post (ch b) p → A.post (ch b') q → A.T x → A.pre x p → A.pre x q
  hi : ∀ b, ¬ A.pre (ch b) i
  T' : ∀ x, A'.T x ↔ A.T x ∧ x ≠ ch true
  pre1 : ∀ p, A'.pre (ch false) p ↔ ∃ b, A.pre (ch b) p
  post1 : ∀ p, A'.post (ch false) p ↔ ∃ b, A.post (ch b) p
  pre' : ∀ x, x ≠ ch false → x ≠ ch true → A'.pre x = A.pre x
  post' : ∀ x, x ≠ ch false → x ≠ ch true → A'.post x = A.post x

section
variable {A A' : ANet α} {ch : Bool → Nat} {i o : Nat}

theorem Conc.pre_post (S : Conc A A' ch i) {b b' : Bool} {p : Nat} (h1 : A.pre (ch b) p) (h2 : A.post (ch b') p) : False := by
  obtain ⟨q, hq⟩ := S.hpost (!b')
  have h3 : A.pre (ch b) q := S.scons b' (!b') p q (ch b) h2 hq (S.T b) h1
  have h4 : A.post (ch b') q := S.sprod b b p q (ch b') h1 h3 (S.T b') h2
  exact S.ne b' (S.prod (!b') q (ch b') hq (S.T b') h4)

theorem Conc.pre_pre (S : Conc A A' ch i) {b : Bool} {p : Nat} (h1 : A.pre (ch b) p) (h2 : A.pre (ch !b) p) : False :=
  S.ne b (S.cons (!b) p (ch b) h2 (S.T b) h1)

theorem Conc.post_post (S : Conc A A' ch i) {b : Bool} {p : Nat} (h1 : A.post (ch b) p) (h2 : A.post (ch !b) p) : False :=
  S.ne b (S.prod (!b) p (ch b) h2 (S.T b) h1)

theorem bne (b b' : Bool) (h : b' ≠ b) : b' = !b := by cases b <;> cases b' <;> simp_all

theorem Conc.pre_eq (S : Conc A A' ch i) {b b' : Bool} {p : Nat} (h1 : A.pre (ch b) p) (h2 : A.pre (ch b') p) : b' = b := by
  apply Classical.byContradiction
  intro h
  rw [bne b b' h] at h2
  exact S.pre_pre h1 h2

theorem Conc.post_eq (S : Conc A A' ch i) {b b' : Bool} {p : Nat} (h1 : A.post (ch b) p) (h2 : A.post (ch b') p) : b' = b := by
  apply Classical.byContradiction
  intro h
  rw [bne b b' h] at h2
  exact S.post_post h1 h2

def upd {β : Type} (f : Bool → β) (b : Bool) (v : β) : Bool → β := fun x => if x = b then v else f x
@[simp] theorem upd_self {β : Type} (f : Bool → β) (b : Bool) (v : β) : upd f b v b = v := by simp [upd]
theorem upd_ne {β : Type} (f : Bool → β) {b x : Bool} (v : β) (h : x ≠ b) : upd f b v x = f x := by simp [upd, h]

theorem snocL {u v w x : List α} (h : Lang.Shuffle u v w) : Lang.Shuffle (u ++ x) v (w ++ x) := by
  induction h with
  | nil => exact Lang.Shuffle.nil_right x
  | left _ ih => exact .left ih
  | right _ ih => exact .right ih

theorem shuf_emit {hs : Bool → List α} {h : List α} (s : Lang.Shuffle (hs false) (hs true) h) (b : Bool) (a : α) :
    Lang.Shuffle (upd hs b (hs b ++ [a]) false) (upd hs b (hs b ++ [a]) true) (h ++ [a]) := by
  cases b with
  | false => simpa [upd] using snocL s
  | true => simpa [upd] using (snocL s.symm).symm

/-- waiting (0), running (1), done (2) -/
def Extra (A : ANet α) (ch : Bool → Nat) (st : Bool → Nat) (p : Nat) : Prop := ∃ b, (st b = 0 ∧ A.pre (ch b) p) ∨ (st b = 2 ∧ A.post (ch b) p)

def StOk (A : ANet α) (ch : Bool → Nat) (c : Cfg α) (st : Bool → Nat) (hs : Bool → List α) (b : Bool) : Prop :=
  (st b = 0 ∧ c.R (ch b) = none ∧ hs b = []) ∨ (st b = 1 ∧ c.R (ch b) = some (hs b)) ∨ (st b = 2 ∧ c.R (ch b) = none ∧ A.L (ch b) (hs b))

inductive ConcSt (A : ANet α) (ch : Bool → Nat) (c c' : Cfg α) : Prop
  | idle : c'.R (ch false) = none → (∀ b, c.R (ch b) = none) → c.M = c'.M → ConcSt A ch c c'
  | run (st : Bool → Nat) (hs : Bool → List α) (h : List α) : c'.R (ch false) = some h → Lang.Shuffle (hs false) (hs true) h →
      (∀ b, StOk A ch c st hs b) → c.M = ext c'.M (Extra A ch st) → (∃ b, st b ≠ 0) → (∃ b, st b ≠ 2) → ConcSt A ch c c'

structure ConcRel (A : ANet α) (ch : Bool → Nat) (c c' : Cfg α) : Prop where
  oth : Oth (ch false) (ch true) c.R c'.R
  n2 : c'.R (ch true) = none
  bal : ∀ b b' p q, A.pre (ch b) p → A.pre (ch b') q → c'.M p = c'.M q
  st : ConcSt A ch c c'

theorem oth_ch {c c' : Cfg α} (h : Oth (ch false) (ch true) c.R c'.R) (b : Bool) (v : Option (List α)) :
    Oth (ch false) (ch true) (setR c.R (ch b) v) c'.R := by
  cases b with
  | false => exact h.l1 v
  | true => exact h.l2 v

theorem ch_cases (x : Nat) : (∃ b, x = ch b) ∨ (x ≠ ch false ∧ x ≠ ch true) := by
  by_cases h1 : x = ch false
  · exact .inl ⟨_, h1⟩
  · by_cases h2 : x = ch true
    · exact .inl ⟨_, h2⟩
    · exact .inr ⟨h1, h2⟩

theorem ch_ne {x : Nat} (h : x ≠ ch false ∧ x ≠ ch true) (b : Bool) : ch b ≠ x := by
  cases b with
  | false => exact Ne.symm h.1
  | true => exact Ne.symm h.2

theorem ConcSt.congr {c c' d d' : Cfg α} (h : ConcSt A ch c c') (h1 : ∀ b, d.R (ch b) = c.R (ch b))
    (h3 : d'.R (ch false) = c'.R (ch false)) (h4 : c.M = c'.M → d.M = d'.M)
    (h5 : ∀ st h, c'.R (ch false) = some h → (∀ b, (st b = 0 → c.R (ch b) = none)) → c.M = ext c'.M (Extra A ch st) → (∃ b, st b ≠ 2) →
      d.M = ext d'.M (Extra A ch st)) : ConcSt A ch d d' := by
  cases h with
  | idle a b f => exact .idle (h3.trans a) (fun x => (h1 x).trans (b x)) (h4 f)
  | run st hs h a s k f g1 g2 =>
    refine .run st hs h (h3.trans a) s (fun b => ?_) (h5 st h a (fun b hb => ?_) f g2) g1 g2
    · have := k b
      simp only [StOk, h1 b] at this ⊢
      exact this
    · rcases k b with k | k | k
      · exact k.2.1
      · omega
      · omega

/-- a third transition that starts does not use the additional tokens -/
theorem conc_other (S : Conc A A' ch i) {c' : Cfg α} {h : List α} (hs : SafeCfg A' c') (hr : c'.R (ch false) = some h) {st : Bool → Nat} (g2 : ∃ b, st b ≠ 2)
    {x : Nat} (hT : A.T x) (hx : x ≠ ch false ∧ x ≠ ch true) (hp : ∀ p, A.pre x p → 0 < ext c'.M (Extra A ch st) p) (p : Nat) (h1 : A.pre x p) :
    ¬ Extra A ch st p := by
  rintro ⟨b, ⟨_, h2⟩ | ⟨h3, h2⟩⟩
  · exact ch_ne hx b (S.cons b p x h2 hT h1).symm
  · have hb : st (!b) ≠ 2 := by
      obtain ⟨b', hb'⟩ := g2
      by_cases e : b' = b
      · subst e; exact absurd h3 hb'
      · rw [← bne b b' e]; exact hb'
    obtain ⟨q, hq⟩ := S.hpost (!b)
    have h4 := S.scons b (!b) p q x h2 hq hT h1
    have h5 := hp q h4
    have h6 : c'.M q = 0 := hs.post _ h q hr ((S.post1 q).2 ⟨_, hq⟩)
    have : Extra A ch st q := by
      apply Classical.byContradiction
      intro hn
      simp [ext, hn, h6] at h5
    obtain ⟨b', ⟨_, k⟩ | ⟨k2, k⟩⟩ := this
    · exact S.pre_post k hq
    · have := S.post_eq hq k
      subst this
      exact hb k2

theorem conc_fwd (S : Conc A A' ch i) (hx : ∀ x h, x ≠ ch false → x ≠ ch true → A.L x h → A'.L x h)
    (hL : ∀ (hs : Bool → List α) h, (∀ b, A.L (ch b) (hs b)) → Lang.Shuffle (hs false) (hs true) h → A'.L (ch false) h) : Fwd A A' i o := by
  have T1' := (S.T' (ch false)).2 ⟨S.T false, S.ne false⟩
  have nz : ∀ {c' : Cfg α} {h : List α} {b p}, SafeCfg A' c' → c'.R (ch false) = some h → A.pre (ch b) p → c'.M p = 0 := by
    intro c' h b p hs hr hp
    exact hs.pre _ h p hr ((S.pre1 p).2 ⟨b, hp⟩)
  have nzp : ∀ {c' : Cfg α} {h : List α} {b p}, SafeCfg A' c' → c'.R (ch false) = some h → A.post (ch b) p → c'.M p = 0 := by
    intro c' h b p hs hr hp
    exact hs.post _ h p hr ((S.post1 p).2 ⟨b, hp⟩)
  refine ⟨ConcRel A ch, ⟨.refl _ _ _, rfl, ?_, .idle rfl (fun _ => rfl) rfl⟩, ?_, ?_, ?_⟩
  · intro b b' p q hp hq
    simp only [init]
    rw [if_neg (by rintro rfl; exact S.hi b hp), if_neg (by rintro rfl; exact S.hi b' hq)]
  · intro c c' l c1 hr hs hc s
    have hs' := hs _ hr
    have f2 : ch true ≠ ch false := S.ne true
    cases s with
    | start x hT hn hp =>
      rcases ch_cases (ch := ch) x with ⟨b, rfl⟩ | hxx
      · cases hc.st with
        | idle a n f =>
          have all : ∀ b' p, A.pre (ch b') p → 0 < c'.M p := by
            intro b' p hp'
            obtain ⟨q, hq⟩ := S.hpre b
            rw [hc.bal b' b p q hp' hq, ← f]
            exact hp q hq
          refine ⟨⟨A'.take (ch false) c'.M, setR c'.R (ch false) (some [])⟩, .tau (.start c' _ T1' a ?_) (.nil _), ?_⟩
          · intro p hp'
            obtain ⟨b', hp'⟩ := (S.pre1 p).1 hp'
            exact all b' p hp'
          refine ⟨(oth_ch hc.oth b _).r1 _, by simp [setR, f2, hc.n2], ?_, ?_⟩
          · intro b1 b2 p q h1 h2
            have := hc.bal b1 b2 p q h1 h2
            simp only [ANet.take, if_pos ((S.pre1 p).2 ⟨b1, h1⟩), if_pos ((S.pre1 q).2 ⟨b2, h2⟩), this]
          · refine .run (upd (fun _ => 0) b 1) (fun _ => []) [] (by simp) .nil (fun b' => ?_) ?_ ⟨b, by simp⟩ ⟨b, by simp⟩
            · by_cases e : b' = b
              · subst e; exact .inr (.inl ⟨by simp, by simp⟩)
              · have hne : ch b' ≠ ch b := by rw [bne b b' e]; exact Ne.symm (S.ne b)
                exact .inl ⟨by simp [upd_ne _ _ e], by simp [setR, hne, n b'], rfl⟩
            · funext p
              have hE : Extra A ch (upd (fun _ => 0) b 1) p ↔ A.pre (ch !b) p := by
                constructor
                · rintro ⟨b', ⟨h1, h2⟩ | ⟨h1, h2⟩⟩
                  · by_cases e : b' = b
                    · subst e; simp at h1
                    · rw [bne b b' e] at h2; exact h2
                  · by_cases e : b' = b
                    · subst e; simp at h1
                    · simp [upd_ne _ _ e] at h1
                · intro h
                  exact ⟨!b, .inl ⟨by simp [upd], h⟩⟩
              simp only [ANet.take, ext, hE, f]
              by_cases h1 : A.pre (ch b) p
              · have h2 : ¬ A.pre (ch !b) p := fun h2 => S.pre_pre h1 h2
                have h3 : A'.pre (ch false) p := (S.pre1 p).2 ⟨b, h1⟩
                simp [h1, h2, h3]
              · by_cases h2 : A.pre (ch !b) p
                · have h3 : A'.pre (ch false) p := (S.pre1 p).2 ⟨!b, h2⟩
                  have := all _ p h2
                  simp only [if_neg h1, if_pos h2, if_pos h3]; omega
                · have h3 : ¬ A'.pre (ch false) p := by
                    rw [S.pre1]
                    rintro ⟨b', h⟩
                    by_cases e : b' = b
                    · subst e; exact h1 h
                    · rw [bne b b' e] at h; exact h2 h
                  simp [h1, h2, h3]
        | run st hs h a s k f g1 g2 =>
          have hb : st b = 0 := by
            rcases k b with k | k | k
            · exact k.1
            · rw [hn] at k; cases k.2
            · exfalso
              obtain ⟨p, h1⟩ := S.hpre b
              have h2 := hp p h1
              have h3 := nz hs' a h1
              have : ¬ Extra A ch st p := by
                rintro ⟨b', ⟨h4, h5⟩ | ⟨h4, h5⟩⟩
                · have := S.pre_eq h1 h5
                  subst this; omega
                · exact S.pre_post h1 h5
              rw [f] at h2
              simp [ext, this, h3] at h2
          have hsb : hs b = [] := by
            rcases k b with k | k | k
            · exact k.2.2
            · omega
            · omega
          refine ⟨c', .nil _, oth_ch hc.oth b _, hc.n2, hc.bal, .run (upd st b 1) hs h a s (fun b' => ?_) ?_ ⟨b, by simp⟩ ⟨b, by simp⟩⟩
          · by_cases e : b' = b
            · subst e; exact .inr (.inl ⟨by simp, by simp [hsb]⟩)
            · have hne : ch b' ≠ ch b := by rw [bne b b' e]; exact Ne.symm (S.ne b)
              have := k b'
              simp only [StOk, upd_ne _ _ e, setR_ne _ _ hne] at this ⊢
              exact this
          · funext p
            have hE : Extra A ch (upd st b 1) p ↔ Extra A ch st p ∧ ¬ A.pre (ch b) p := by
              constructor
              · rintro ⟨b', h1⟩
                by_cases e : b' = b
                · subst e; simp at h1
                · rw [upd_ne _ _ e] at h1
                  refine ⟨⟨b', h1⟩, fun h2 => ?_⟩
                  rcases h1 with ⟨_, h1⟩ | ⟨_, h1⟩
                  · exact e (S.pre_eq h2 h1)
                  · exact S.pre_post h2 h1
              · rintro ⟨⟨b', h1⟩, h2⟩
                by_cases e : b' = b
                · subst e
                  rcases h1 with ⟨_, h1⟩ | ⟨h3, h1⟩
                  · exact absurd h1 h2
                  · omega
                · exact ⟨b', by rw [upd_ne _ _ e]; exact h1⟩
            simp only [ANet.take, ext, hE, f]
            by_cases h1 : A.pre (ch b) p
            · have : Extra A ch st p := ⟨b, .inl ⟨hb, h1⟩⟩
              simp [h1, this]
            · simp [h1]
      · have ex := S.pre' x hxx.1 hxx.2
        have n1 : ∀ b p, A.pre x p → ¬ A.pre (ch b) p := fun b p h1 h2 => ch_ne hxx b (S.cons b p x h2 hT h1).symm
        refine ⟨⟨A'.take x c'.M, setR c'.R x (some [])⟩, .tau (.start c' x ((S.T' x).2 ⟨hT, hxx.2⟩) (by rw [← hc.oth x hxx.1 hxx.2]; exact hn) ?_) (.nil _), ?_⟩
        · intro p hp'
          rw [ex] at hp'
          have h1 := hp p hp'
          cases hc.st with
          | idle a n f => rw [f] at h1; exact h1
          | run st hs h a s k f g1 g2 =>
            have := conc_other S hs' a g2 hT hxx (fun q hq => by rw [← f]; exact hp q hq) p hp'
            rw [f] at h1
            simpa [ext, this] using h1
        · refine ⟨hc.oth.both _ _, by simp [setR, Ne.symm hxx.2, hc.n2], ?_, hc.st.congr (fun b => by simp [setR, ch_ne hxx b]) (by simp [setR, Ne.symm hxx.1]) ?_ ?_⟩
          · intro b1 b2 p q h1 h2
            have := hc.bal b1 b2 p q h1 h2
            have h3 : ¬ A'.pre x p := by rw [ex]; exact fun h => n1 b1 p h h1
            have h4 : ¬ A'.pre x q := by rw [ex]; exact fun h => n1 b2 q h h2
            simp [ANet.take, h3, h4, this]
          · intro f; simp [take_eq ex, f]
          · intro st h a _ f g2
            have := conc_other S hs' a g2 hT hxx (fun q hq => by rw [← f]; exact hp q hq)
            funext q
            simp only [ANet.take, f, ext, ex]
            by_cases h1 : A.pre x q
            · simp [h1, this q h1]
            · simp [h1]
    | emit x ev h hh =>
      rcases ch_cases (ch := ch) x with ⟨b, rfl⟩ | hxx
      · cases hc.st with
        | idle a n f => rw [n b] at hh; cases hh
        | run st hs h' a s k f g1 g2 =>
          have hb : st b = 1 ∧ hs b = h := by
            rcases k b with k | k | k
            · rw [k.2.1] at hh; cases hh
            · rw [k.2] at hh; exact ⟨k.1, by simpa using hh⟩
            · rw [k.2.1] at hh; cases hh
          refine ⟨_, .vis (.emit c' (ch false) _ h' a) (.nil _), ?_⟩
          refine ⟨(oth_ch hc.oth b _).r1 _, by simp [setR, f2, hc.n2], hc.bal, .run st (upd hs b (h ++ [ev])) (h' ++ [ev]) (by simp) ?_ (fun b' => ?_) f g1 g2⟩
          · rw [← hb.2]; exact shuf_emit s b ev
          · by_cases e : b' = b
            · subst e; exact .inr (.inl ⟨hb.1, by simp⟩)
            · have hne : ch b' ≠ ch b := by rw [bne b b' e]; exact Ne.symm (S.ne b)
              have := k b'
              simp only [StOk, upd_ne _ _ e, setR_ne _ _ hne] at this ⊢
              exact this
      · refine ⟨_, .vis (.emit c' x _ h (by rw [← hc.oth x hxx.1 hxx.2]; exact hh)) (.nil _), ?_⟩
        exact ⟨hc.oth.both _ _, by simp [setR, Ne.symm hxx.2, hc.n2], hc.bal,
          hc.st.congr (fun b => by simp [setR, ch_ne hxx b]) (by simp [setR, Ne.symm hxx.1]) id (fun _ _ _ _ f _ => f)⟩
    | stop x h hh hLx =>
      rcases ch_cases (ch := ch) x with ⟨b, rfl⟩ | hxx
      · cases hc.st with
        | idle a n f => rw [n b] at hh; cases hh
        | run st hs h' a s k f g1 g2 =>
          have hb : st b = 1 ∧ hs b = h := by
            rcases k b with k | k | k
            · rw [k.2.1] at hh; cases hh
            · rw [k.2] at hh; exact ⟨k.1, by simpa using hh⟩
            · rw [k.2.1] at hh; cases hh
          by_cases h2 : st (!b) = 2
          · -- both are done
            have hall : ∀ b', A.L (ch b') (hs b') := by
              intro b'
              by_cases e : b' = b
              · subst e; rw [hb.2]; exact hLx
              · rw [bne b b' e]
                rcases k (!b) with k | k | k
                · omega
                · omega
                · exact k.2.2
            refine ⟨_, .tau (.stop c' (ch false) h' a (hL hs h' hall s)) (.nil _), ?_⟩
            refine ⟨(oth_ch hc.oth b _).r1 _, by simp [setR, f2, hc.n2], ?_, .idle (by simp) (fun b' => ?_) ?_⟩
            · intro b1 b2 p q h1 h2
              have := hc.bal b1 b2 p q h1 h2
              have h3 : ¬ A'.post (ch false) p := by rw [S.post1]; rintro ⟨b', h⟩; exact S.pre_post h1 h
              have h4 : ¬ A'.post (ch false) q := by rw [S.post1]; rintro ⟨b', h⟩; exact S.pre_post h2 h
              simp [ANet.put, h3, h4, this]
            · by_cases e : b' = b
              · subst e; simp
              · have hne : ch b' ≠ ch b := by rw [bne b b' e]; exact Ne.symm (S.ne b)
                simp only [setR_ne _ _ hne]
                rw [bne b b' e]
                rcases k (!b) with k | k | k
                · omega
                · omega
                · exact k.2.1
            · funext p
              have hE : Extra A ch st p ↔ A.post (ch !b) p := by
                constructor
                · rintro ⟨b', h1⟩
                  by_cases e : b' = b
                  · subst e; omega
                  · rw [bne b b' e] at h1
                    rcases h1 with ⟨h1, _⟩ | ⟨_, h1⟩
                    · omega
                    · exact h1
                · intro h
                  exact ⟨!b, .inr ⟨h2, h⟩⟩
              simp only [ANet.put, ext, hE, f]
              by_cases h1 : A.post (ch b) p
              · have h2 : ¬ A.post (ch !b) p := fun h2 => S.post_post h1 h2
                have h3 : A'.post (ch false) p := (S.post1 p).2 ⟨b, h1⟩
                simp [h1, h2, h3]
              · by_cases h2 : A.post (ch !b) p
                · have h3 : A'.post (ch false) p := (S.post1 p).2 ⟨!b, h2⟩
                  simp [h1, h2, h3]
                · have h3 : ¬ A'.post (ch false) p := by
                    rw [S.post1]
                    rintro ⟨b', h⟩
                    by_cases e : b' = b
                    · subst e; exact h1 h
                    · rw [bne b b' e] at h; exact h2 h
                  simp [h1, h2, h3]
          · refine ⟨c', .nil _, oth_ch hc.oth b _, hc.n2, hc.bal, .run (upd st b 2) hs h' a s (fun b' => ?_) ?_ ⟨b, by simp⟩ ⟨!b, by simp [upd]; exact h2⟩⟩
            · by_cases e : b' = b
              · subst e; exact .inr (.inr ⟨by simp, by simp, by rw [hb.2]; exact hLx⟩)
              · have hne : ch b' ≠ ch b := by rw [bne b b' e]; exact Ne.symm (S.ne b)
                have := k b'
                simp only [StOk, upd_ne _ _ e, setR_ne _ _ hne] at this ⊢
                exact this
            · funext p
              have hE : Extra A ch (upd st b 2) p ↔ Extra A ch st p ∨ A.post (ch b) p := by
                constructor
                · rintro ⟨b', h1⟩
                  by_cases e : b' = b
                  · subst e; simp at h1; exact .inr h1
                  · rw [upd_ne _ _ e] at h1; exact .inl ⟨b', h1⟩
                · rintro (⟨b', h1⟩ | h1)
                  · by_cases e : b' = b
                    · subst e; omega
                    · exact ⟨b', by rw [upd_ne _ _ e]; exact h1⟩
                  · exact ⟨b, .inr ⟨by simp, h1⟩⟩
              simp only [ANet.put, ext, hE, f]
              by_cases h1 : A.post (ch b) p
              · have : ¬ Extra A ch st p := by
                  rintro ⟨b', ⟨h3, h4⟩ | ⟨h3, h4⟩⟩
                  · exact S.pre_post h4 h1
                  · have := S.post_eq h1 h4
                    subst this; omega
                simp [h1, this]
              · simp [h1]
      · have ex := S.post' x hxx.1 hxx.2
        have hr' : c'.R x = some h := by rw [← hc.oth x hxx.1 hxx.2]; exact hh
        have hT := ((S.T' x).1 (hr.run_T hr')).1
        refine ⟨_, .tau (.stop c' x h hr' (hx x h hxx.1 hxx.2 hLx)) (.nil _), ?_⟩
        refine ⟨hc.oth.both _ _, by simp [setR, Ne.symm hxx.2, hc.n2], ?_, hc.st.congr (fun b => by simp [setR, ch_ne hxx b]) (by simp [setR, Ne.symm hxx.1]) ?_ ?_⟩
        · intro b1 b2 p q h1 h2
          have := hc.bal b1 b2 p q h1 h2
          have h3 : A.post x p ↔ A.post x q := ⟨S.sprod b1 b2 p q x h1 h2 hT, S.sprod b2 b1 q p x h2 h1 hT⟩
          simp [ANet.put, ex, h3, this]
        · intro f; simp [put_eq ex, f]
        · intro st h _ _ f _
          funext q
          simp only [ANet.put, f, ext, ex]
          split <;> split <;> rfl
  · intro c c' hr hs hc
    have hs' := hs _ hr
    have key : ∀ p, c.M p ≠ c'.M p → ∃ st h, c'.R (ch false) = some h ∧ Extra A ch st p ∧ (∀ b, (st b = 0 ∨ st b = 2 → c.R (ch b) = none)) := by
      intro p hp
      cases hc.st with
      | idle a n f => rw [f] at hp; exact absurd rfl hp
      | run st hs h a s k f g1 g2 =>
        refine ⟨st, h, a, ?_, fun b hb => ?_⟩
        · apply Classical.byContradiction
          intro hn
          rw [f] at hp
          simp [ext, hn] at hp
        · rcases k b with k | k | k
          · exact k.2.1
          · omega
          · exact k.2.1
    have r1 : ∀ b h, c.R (ch b) = some h → ∃ h', c'.R (ch false) = some h' := by
      intro b h hh
      cases hc.st with
      | idle a n f => rw [n b] at hh; cases hh
      | run st hs h' a s k f g1 g2 => exact ⟨h', a⟩
    refine ⟨?_, ?_, ?_⟩
    · intro p
      by_cases hp : c.M p = c'.M p
      · rw [hp]; exact hs'.one p
      · cases hc.st with
        | idle a n f => rw [f]; exact hs'.one p
        | run st hs h a s k f g1 g2 =>
          have hE : Extra A ch st p := by
            apply Classical.byContradiction
            intro hn
            rw [f] at hp
            simp [ext, hn] at hp
          have : c'.M p = 0 := by
            obtain ⟨b, ⟨_, h1⟩ | ⟨_, h1⟩⟩ := hE
            · exact nz hs' a h1
            · exact nzp hs' a h1
          rw [f]; simp [ext, hE, this]
    · intro t h p hh hp
      rcases ch_cases (ch := ch) t with ⟨b, rfl⟩ | hxx
      · obtain ⟨h', ha⟩ := r1 b h hh
        have hz := nz hs' ha hp
        apply Classical.byContradiction
        intro hne
        obtain ⟨st, h2, a2, ⟨b', ⟨h3, h4⟩ | ⟨h3, h4⟩⟩, k⟩ := key p (by omega)
        · have := S.pre_eq hp h4
          subst this
          rw [k b' (.inl h3)] at hh; cases hh
        · exact S.pre_post hp h4
      · have hr' : c'.R t = some h := by rw [← hc.oth t hxx.1 hxx.2]; exact hh
        have hT := ((S.T' t).1 (hr.run_T hr')).1
        have hz := hs'.pre t h p hr' (by rw [S.pre' t hxx.1 hxx.2]; exact hp)
        apply Classical.byContradiction
        intro hne
        obtain ⟨st, h2, a2, ⟨b', ⟨h3, h4⟩ | ⟨h3, h4⟩⟩, k⟩ := key p (by omega)
        · exact ch_ne hxx b' (S.cons b' p t h4 hT hp).symm
        · exact (hs.no_post hr (t := t) (x := ch false) hr' a2 (Ne.symm hxx.1) p ((S.post1 p).2 ⟨b', h4⟩)).1 (by rw [S.pre' t hxx.1 hxx.2]; exact hp)
    · intro t h p hh hp
      rcases ch_cases (ch := ch) t with ⟨b, rfl⟩ | hxx
      · obtain ⟨h', ha⟩ := r1 b h hh
        have hz := nzp hs' ha hp
        apply Classical.byContradiction
        intro hne
        obtain ⟨st, h2, a2, ⟨b', ⟨h3, h4⟩ | ⟨h3, h4⟩⟩, k⟩ := key p (by omega)
        · exact S.pre_post h4 hp
        · have := S.post_eq hp h4
          subst this
          rw [k b' (.inr h3)] at hh; cases hh
      · have hr' : c'.R t = some h := by rw [← hc.oth t hxx.1 hxx.2]; exact hh
        have hT := ((S.T' t).1 (hr.run_T hr')).1
        have hz := hs'.post t h p hr' (by rw [S.post' t hxx.1 hxx.2]; exact hp)
        apply Classical.byContradiction
        intro hne
        obtain ⟨st, h2, a2, ⟨b', ⟨h3, h4⟩ | ⟨h3, h4⟩⟩, k⟩ := key p (by omega)
        · exact (hs.no_post hr (t := ch false) (x := t) a2 hr' hxx.1 p (by rw [S.post' t hxx.1 hxx.2]; exact hp)).1 ((S.pre1 p).2 ⟨b', h4⟩)
        · exact ch_ne hxx b' (S.prod b' p t h4 hT hp).symm
  · intro c c' hr hs hc hf
    have hidle : c'.R (ch false) = none ∧ c.M = c'.M := by
      cases hc.st with
      | idle a n f => exact ⟨a, f⟩
      | run st hs2 h a s k f g1 g2 =>
        exfalso
        -- one waits or both are done
        have k' : ∀ b, st b = 0 ∨ st b = 2 := by
          intro b
          rcases k b with k | k | k
          · exact .inl k.1
          · have := hf.2 (ch b); rw [k.2] at this; cases this
          · exact .inr k.1
        obtain ⟨b, hb⟩ := g2
        obtain ⟨b', hb'⟩ := g1
        have h0 : st b = 0 := (k' b).resolve_right hb
        have h2 : st b' = 2 := (k' b').resolve_left hb'
        obtain ⟨p, hp⟩ := S.hpre b
        obtain ⟨q, hq⟩ := S.hpost b'
        have e1 := hf.1 p
        have e2 := hf.1 q
        rw [f] at e1 e2
        have E1 : Extra A ch st p := ⟨b, .inl ⟨h0, hp⟩⟩
        have E2 : Extra A ch st q := ⟨b', .inr ⟨h2, hq⟩⟩
        simp only [ext, if_pos E1, if_pos E2] at e1 e2
        have : p = o := by
          apply Classical.byContradiction
          intro h; rw [if_neg h] at e1; omega
        subst this
        have : q = p := by
          apply Classical.byContradiction
          intro h; rw [if_neg h] at e2; omega
        subst this
        exact S.pre_post hp hq
    refine ⟨by rw [← hidle.2]; exact hf.1, fun t => ?_⟩
    by_cases h1 : t = ch false
    · rw [h1]; exact hidle.1
    · by_cases h2 : t = ch true
      · rw [h2]; exact hc.n2
      · rw [← hc.oth t h1 h2]; exact hf.2 t

inductive ConcStU (ch : Bool → Nat) (c c' : Cfg α) : Prop
  | idle : c'.R (ch false) = none → (∀ b, c.R (ch b) = none) → ConcStU ch c c'
  | run (us : Bool → List α) (r : List α) : c'.R (ch false) = some r → Lang.Shuffle (us false) (us true) r →
      (∀ b, c.R (ch b) = some (us b)) → ConcStU ch c c'

structure ConcRelU (ch : Bool → Nat) (c c' : Cfg α) : Prop where
  m : c.M = c'.M
  oth : Oth (ch false) (ch true) c.R c'.R
  n2 : c'.R (ch true) = none
  st : ConcStU ch c c'

theorem ConcStU.congr {c c' d d' : Cfg α} (h : ConcStU ch c c') (h1 : ∀ b, d.R (ch b) = c.R (ch b))
    (h3 : d'.R (ch false) = c'.R (ch false)) : ConcStU ch d d' := by
  cases h with
  | idle a b => exact .idle (h3.trans a) (fun x => (h1 x).trans (b x))
  | run us r a s k => exact .run us r (h3.trans a) s fun b => (h1 b).trans (k b)

theorem conc_bwd (S : Conc A A' ch i) (hx : ∀ x h, x ≠ ch false → x ≠ ch true → A'.L x h → A.L x h)
    (hL : ∀ h, A'.L (ch false) h → ∃ us : Bool → List α, (∀ b, A.L (ch b) (us b)) ∧ Lang.Shuffle (us false) (us true) h) : Bwd A A' i o := by
  have f1 : ch false ≠ ch true := S.ne false
  have f2 : ch true ≠ ch false := S.ne true
  refine ⟨fun c' c => ConcRelU ch c c', ⟨rfl, .refl _ _ _, rfl, .idle rfl fun _ => rfl⟩, ?_, ?_⟩
  · intro c' c l c1' hc s
    cases s with
    | start x u hT hn hp hLx =>
      have hx2 := ((S.T' x).1 hT).2
      by_cases hx1 : x = ch false
      · subst hx1
        have hcc : ∀ b, c.R (ch b) = none := by
          cases hc.st with
          | idle a b => exact b
          | run us r a s k => rw [a] at hn; cases hn
        obtain ⟨us, l1, s1⟩ := hL u hLx
        refine ⟨_, .tau (.start c (ch false) (us false) (S.T _) (hcc _) (fun p hp' => by rw [hc.m]; exact hp p ((S.pre1 p).2 ⟨_, hp'⟩)) (l1 _))
          (.tau (.start _ (ch true) (us true) (S.T _) (by simp [setR, f2, hcc true]) ?_ (l1 _)) (.nil _)), ?_⟩
        · intro p hp'
          have h1 := hp p ((S.pre1 p).2 ⟨_, hp'⟩)
          have h2 : ¬ A.pre (ch false) p := fun h => S.pre_pre (b := false) h hp'
          simp only [ANet.take, if_neg h2, hc.m]; exact h1
        · refine ⟨?_, ((hc.oth.l1 _).l2 _).r1 _, by simp [setR, f2, hc.n2], .run us u (by simp) s1 (fun b => ?_)⟩
          · funext p
            simp only [ANet.take, hc.m]
            by_cases h1 : A.pre (ch false) p
            · have h2 : ¬ A.pre (ch true) p := fun h => S.pre_pre (b := false) h1 h
              simp [h1, h2, (S.pre1 p).2 ⟨_, h1⟩]
            · by_cases h2 : A.pre (ch true) p
              · simp [h1, h2, (S.pre1 p).2 ⟨_, h2⟩]
              · have : ¬ A'.pre (ch false) p := by
                  rw [S.pre1]; rintro ⟨b, h⟩
                  cases b <;> contradiction
                simp [h1, h2, this]
          · cases b with
            | false => simp [setR, f1]
            | true => simp [setR]
      · have ex := S.pre' x hx1 hx2
        refine ⟨_, .tau (.start c x u ((S.T' x).1 hT).1 (by rw [hc.oth x hx1 hx2]; exact hn) (by rw [hc.m, ← ex]; exact hp) (hx x u hx1 hx2 hLx)) (.nil _), ?_⟩
        exact ⟨by simp [take_eq ex, hc.m], hc.oth.both _ _, by simp [setR, Ne.symm hx2, hc.n2],
          hc.st.congr (fun b => by simp [setR, ch_ne ⟨hx1, hx2⟩ b]) (by simp [setR, Ne.symm hx1])⟩
    | emit x a u hh =>
      have hx2 : x ≠ ch true := by rintro rfl; rw [hc.n2] at hh; cases hh
      by_cases hx1 : x = ch false
      · subst hx1
        cases hc.st with
        | idle a b => rw [a] at hh; cases hh
        | run us r a' s k =>
          rw [a'] at hh
          cases hh
          have h0 := k false
          have h1 := k true
          generalize hu0 : us false = u0 at *
          generalize hu1 : us true = u1 at *
          cases s with
          | left s =>
            rename_i u0
            refine ⟨_, .vis (.emit c (ch false) a u0 h0) (.nil _), ?_⟩
            refine ⟨hc.m, (hc.oth.l1 _).r1 _, by simp [setR, f2, hc.n2], .run (fun b => if b then u1 else u0) u (by simp) (by simpa using s) (fun b => ?_)⟩
            cases b with
            | false => simp
            | true => simp [setR, f2, h1]
          | right s =>
            rename_i u1
            refine ⟨_, .vis (.emit c (ch true) a u1 h1) (.nil _), ?_⟩
            refine ⟨hc.m, (hc.oth.l2 _).r1 _, by simp [setR, f2, hc.n2], .run (fun b => if b then u1 else u0) u (by simp) (by simpa using s) (fun b => ?_)⟩
            cases b with
            | false => simp [setR, f1, h0]
            | true => simp
      · refine ⟨_, .vis (.emit c x _ u (by rw [hc.oth x hx1 hx2]; exact hh)) (.nil _), ?_⟩
        exact ⟨hc.m, hc.oth.both _ _, by simp [setR, Ne.symm hx2, hc.n2],
          hc.st.congr (fun b => by simp [setR, ch_ne ⟨hx1, hx2⟩ b]) (by simp [setR, Ne.symm hx1])⟩
    | stop x hh =>
      have hx2 : x ≠ ch true := by rintro rfl; rw [hc.n2] at hh; cases hh
      by_cases hx1 : x = ch false
      · subst hx1
        cases hc.st with
        | idle a b => rw [a] at hh; cases hh
        | run us r a' s k =>
          rw [a'] at hh
          cases hh
          have h0 := k false
          have h1 := k true
          generalize hu0 : us false = u0 at *
          generalize hu1 : us true = u1 at *
          cases s with
          | nil =>
            refine ⟨_, .tau (.stop c (ch false) h0) (.tau (.stop _ (ch true) (by simp [setR, f2, h1])) (.nil _)), ?_⟩
            refine ⟨?_, ((hc.oth.l1 _).l2 _).r1 _, by simp [setR, f2, hc.n2], .idle (by simp) (fun b => ?_)⟩
            · funext p
              simp only [ANet.put, hc.m]
              by_cases h1 : A.post (ch false) p
              · have h2 : ¬ A.post (ch true) p := fun h => S.post_post (b := false) h1 h
                simp [h1, h2, (S.post1 p).2 ⟨_, h1⟩]
              · by_cases h2 : A.post (ch true) p
                · simp [h1, h2, (S.post1 p).2 ⟨_, h2⟩]
                · have : ¬ A'.post (ch false) p := by
                    rw [S.post1]; rintro ⟨b, h⟩
                    cases b <;> contradiction
                  simp [h1, h2, this]
            · cases b with
              | false => simp [setR, f1]
              | true => simp
      · refine ⟨_, .tau (.stop c x (by rw [hc.oth x hx1 hx2]; exact hh)) (.nil _), ?_⟩
        exact ⟨by simp [put_eq (S.post' x hx1 hx2), hc.m], hc.oth.both _ _, by simp [setR, Ne.symm hx2, hc.n2],
          hc.st.congr (fun b => by simp [setR, ch_ne ⟨hx1, hx2⟩ b]) (by simp [setR, Ne.symm hx1])⟩
  · intro c' c hc hf
    have hcc : ∀ b, c.R (ch b) = none := by
      cases hc.st with
      | idle a b => exact b
      | run us r a s k => have := hf.2 (ch false); rw [a] at this; cases this
    refine ⟨by rw [hc.m]; exact hf.1, fun t => ?_⟩
    by_cases h1 : t = ch false
    · rw [h1]; exact hcc _
    · by_cases h2 : t = ch true
      · rw [h2]; exact hcc _
      · rw [hc.oth t h1 h2]; exact hf.2 t

theorem conc_red (S : Conc A A' ch i) (hx : ∀ x, x ≠ ch false → x ≠ ch true → A'.L x = A.L x)
    (hL : A'.L (ch false) = Lang.parL [A.L (ch false), A.L (ch true)]) : Red A A' i o := by
  have e : A'.L (ch false) = Lang.shuf (A.L (ch false)) (A.L (ch true)) := by rw [hL]; simp [Lang.parL, Lang.shuf_eps_right]
  refine red_of (conc_fwd S (fun x h a b => by rw [hx x a b]; exact id) (fun hs h a b => by rw [e]; exact ⟨_, _, a false, a true, b⟩)) ?_
    (conc_bwd S (fun x h a b => by rw [hx x a b]; exact id) (fun h a => by
      rw [e] at a
      obtain ⟨r, u, a, b, c⟩ := a
      refine ⟨fun b => if b then u else r, fun x => ?_, by simpa using c⟩
      cases x with
      | false => simpa using a
      | true => simpa using b))
  refine conc_fwd (ch := ch) ⟨S.ne, S.T, S.hpre, S.hpost, S.cons, S.prod, S.sprod, S.scons, S.hi, S.T', S.pre1, S.post1, S.pre', S.post'⟩ ?_ ?_ <;> intros <;> trivial

end
end Verif.WfTree
