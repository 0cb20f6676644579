import Verif.PTree.Lang
import Verif.PTree.LangLemmas
/-
C53: nets whose transitions take time. A transition consumes its tokens when it starts, executes a sequence of activities of its
language one by one, and produces its tokens when it stops. (Nets whose transitions are labelled with process trees, as they occur
during the conversion of a workflow net to a process tree.)
-/
namespace Verif.WfTree
open Classical
variable {α : Type}

/-- a net with a language for each transition -/
structure ANet (α : Type) where
  T : Nat → Prop
  pre : Nat → Nat → Prop
  post : Nat → Nat → Prop
  L : Nat → Lang α

/-- the tokens, and for each running transition a sequence of activities -/
structure Cfg (α : Type) where
  M : Nat → Nat
  R : Nat → Option (List α)

noncomputable def ANet.take (A : ANet α) (t : Nat) (M : Nat → Nat) : Nat → Nat := fun p => if A.pre t p then M p - 1 else M p
noncomputable def ANet.put (A : ANet α) (t : Nat) (M : Nat → Nat) : Nat → Nat := fun p => if A.post t p then M p + 1 else M p
noncomputable def setR (R : Nat → Option (List α)) (t : Nat) (v : Option (List α)) : Nat → Option (List α) := fun x => if x = t then v else R x

@[simp] theorem setR_self (R : Nat → Option (List α)) (t : Nat) (v : Option (List α)) : setR R t v t = v := by simp [setR]
theorem setR_ne (R : Nat → Option (List α)) {t x : Nat} (v : Option (List α)) (h : x ≠ t) : setR R t v x = R x := by simp [setR, h]

/-- the sequence is what the transition has executed so far; it is tested at the end -/
inductive StepH (A : ANet α) : Cfg α → Option α → Cfg α → Prop
  | start (c : Cfg α) (t : Nat) : A.T t → c.R t = none → (∀ p, A.pre t p → 0 < c.M p) →
      StepH A c none ⟨A.take t c.M, setR c.R t (some [])⟩
  | emit (c : Cfg α) (t : Nat) (a : α) (h : List α) : c.R t = some h → StepH A c (some a) ⟨c.M, setR c.R t (some (h ++ [a]))⟩
  | stop (c : Cfg α) (t : Nat) (h : List α) : c.R t = some h → A.L t h → StepH A c none ⟨A.put t c.M, setR c.R t none⟩

/-- the sequence is what the transition will execute -/
inductive StepU (A : ANet α) : Cfg α → Option α → Cfg α → Prop
  | start (c : Cfg α) (t : Nat) (u : List α) : A.T t → c.R t = none → (∀ p, A.pre t p → 0 < c.M p) → A.L t u →
      StepU A c none ⟨A.take t c.M, setR c.R t (some u)⟩
  | emit (c : Cfg α) (t : Nat) (a : α) (u : List α) : c.R t = some (a :: u) → StepU A c (some a) ⟨c.M, setR c.R t (some u)⟩
  | stop (c : Cfg α) (t : Nat) : c.R t = some [] → StepU A c none ⟨A.put t c.M, setR c.R t none⟩

inductive Run (S : Cfg α → Option α → Cfg α → Prop) : Cfg α → List α → Cfg α → Prop
  | nil (c : Cfg α) : Run S c [] c
  | tau {c c1 d : Cfg α} {w : List α} : S c none c1 → Run S c1 w d → Run S c w d
  | vis {c c1 d : Cfg α} {w : List α} {a : α} : S c (some a) c1 → Run S c1 w d → Run S c (a :: w) d

theorem Run.trans {S : Cfg α → Option α → Cfg α → Prop} {c d e : Cfg α} {w v : List α} (h : Run S c w d) (h2 : Run S d v e) :
    Run S c (w ++ v) e := by
  induction h with
  | nil c => exact h2
  | tau s _ ih => exact .tau s (ih h2)
  | vis s _ ih => exact .vis s (ih h2)

theorem Run.snoc {S : Cfg α → Option α → Cfg α → Prop} {c d e : Cfg α} {w : List α} (h : Run S c w d) (h2 : S d none e) : Run S c w e := by
  have := h.trans (.tau h2 (.nil e))
  simpa using this

theorem Run.mono {S S' : Cfg α → Option α → Cfg α → Prop} (hs : ∀ c o d, S c o d → S' c o d) {c d : Cfg α} {w : List α}
    (h : Run S c w d) : Run S' c w d := by
  induction h with
  | nil c => exact .nil c
  | tau s _ ih => exact .tau (hs _ _ _ s) ih
  | vis s _ ih => exact .vis (hs _ _ _ s) ih

def oList (o : Option α) : List α := match o with
  | none => []
  | some a => [a]

theorem Run.one {S : Cfg α → Option α → Cfg α → Prop} {c d : Cfg α} {o : Option α} (h : S c o d) : Run S c (oList o) d := by
  cases o with
  | none => exact .tau h (.nil d)
  | some a => exact .vis h (.nil d)

theorem Run.cons {S : Cfg α → Option α → Cfg α → Prop} {c d e : Cfg α} {o : Option α} {w : List α} (h : S c o d) (h2 : Run S d w e) :
    Run S c (oList o ++ w) e := (Run.one h).trans h2

/-- one token in `i`, nothing runs -/
noncomputable def init (i : Nat) : Cfg α := ⟨fun p => if p = i then 1 else 0, fun _ => none⟩

def Final (o : Nat) (c : Cfg α) : Prop := (∀ p, c.M p = if p = o then 1 else 0) ∧ ∀ t, c.R t = none

def LangH (A : ANet α) (i o : Nat) (w : List α) : Prop := ∃ d, Run (StepH A) (init i) w d ∧ Final o d
def LangU (A : ANet α) (i o : Nat) (w : List α) : Prop := ∃ d, Run (StepU A) (init i) w d ∧ Final o d

theorem u_h (A : ANet α) {c d : Cfg α} {w : List α} (hr : Run (StepU A) c w d) : ∀ c' : Cfg α, c'.M = c.M →
    (∀ t, c.R t = none → c'.R t = none) → (∀ t u, c.R t = some u → ∃ h, c'.R t = some h ∧ A.L t (h ++ u)) →
    ∃ d', Run (StepH A) c' w d' ∧ d'.M = d.M ∧ ∀ t, d.R t = none → d'.R t = none := by
  induction hr with
  | nil c => intro c' h1 h2 _; exact ⟨c', .nil c', h1, h2⟩
  | @tau c c1 d w s _ ih =>
    intro c' h1 h2 h3
    cases s with
    | start t u hT hn hp hL =>
      obtain ⟨d', r, e⟩ := ih ⟨A.take t c'.M, setR c'.R t (some [])⟩ (by simp [h1]) (by
          intro x hx
          by_cases hxt : x = t
          · subst hxt; simp at hx
          · simp [setR, hxt] at hx ⊢; exact h2 x hx) (by
          intro x v hx
          by_cases hxt : x = t
          · subst hxt
            simp at hx; subst hx
            exact ⟨[], by simp, by simpa using hL⟩
          · simp [setR, hxt] at hx ⊢; exact h3 x v hx)
      exact ⟨d', .tau (.start c' t hT (h2 t hn) (by rw [h1]; exact hp)) r, e⟩
    | stop t hr =>
      obtain ⟨h, hh, hL⟩ := h3 t [] hr
      obtain ⟨d', r, e⟩ := ih ⟨A.put t c'.M, setR c'.R t none⟩ (by simp [h1]) (by
          intro x hx
          by_cases hxt : x = t
          · subst hxt; simp
          · simp [setR, hxt] at hx ⊢; exact h2 x hx) (by
          intro x v hx
          by_cases hxt : x = t
          · subst hxt; simp at hx
          · simp [setR, hxt] at hx ⊢; exact h3 x v hx)
      exact ⟨d', .tau (.stop c' t h hh (by simpa using hL)) r, e⟩
  | @vis c c1 d w a s _ ih =>
    intro c' h1 h2 h3
    cases s with
    | emit t _ u hr =>
      obtain ⟨h, hh, hL⟩ := h3 t _ hr
      obtain ⟨d', r, e⟩ := ih ⟨c'.M, setR c'.R t (some (h ++ [a]))⟩ h1 (by
          intro x hx
          by_cases hxt : x = t
          · subst hxt; simp at hx
          · simp [setR, hxt] at hx ⊢; exact h2 x hx) (by
          intro x v hx
          by_cases hxt : x = t
          · subst hxt
            simp at hx; subst hx
            exact ⟨h ++ [a], by simp, by simpa using hL⟩
          · simp [setR, hxt] at hx ⊢; exact h3 x v hx)
      exact ⟨d', .vis (.emit c' t a h hh) r, e⟩

theorem h_u (A : ANet α) {c d : Cfg α} {w : List α} (hr : Run (StepH A) c w d) (hd : ∀ t, d.R t = none) :
    ∃ c' d' : Cfg α, c'.M = c.M ∧ (∀ t, c.R t = none → c'.R t = none) ∧ (∀ t h, c.R t = some h → ∃ u, c'.R t = some u ∧ A.L t (h ++ u)) ∧
      Run (StepU A) c' w d' ∧ d'.M = d.M ∧ ∀ t, d'.R t = none := by
  induction hr with
  | nil c => exact ⟨c, c, rfl, fun _ h => h, fun t h hh => (by rw [hd t] at hh; cases hh), .nil c, rfl, hd⟩
  | @tau c c1 d w s _ ih =>
    obtain ⟨c', d', h1, h2, h3, r, e1, e2⟩ := ih hd
    cases s with
    | start t hT hn hp =>
      obtain ⟨u, hu, hL⟩ := h3 t [] (by simp)
      refine ⟨⟨c.M, setR c'.R t none⟩, d', rfl, ?_, ?_, .tau (.start _ t u hT (by simp) hp (by simpa using hL)) ?_, e1, e2⟩
      · intro x hx
        by_cases hxt : x = t
        · subst hxt; simp
        · simp [setR, hxt]; exact h2 x (by simp [setR, hxt]; exact hx)
      · intro x h hx
        by_cases hxt : x = t
        · subst hxt; rw [hn] at hx; cases hx
        · simp [setR, hxt]; exact h3 x h (by simp [setR, hxt]; exact hx)
      · have : (⟨A.take t c.M, setR (setR c'.R t none) t (some u)⟩ : Cfg α) = c' := by
          cases c' with
          | mk M R =>
            simp at h1 ⊢
            refine ⟨h1.symm, ?_⟩
            funext x
            by_cases hxt : x = t
            · subst hxt; simp at hu; simp [hu]
            · simp [setR, hxt]
        rw [this]; exact r
    | stop t h hr hL =>
      refine ⟨⟨c.M, setR c'.R t (some [])⟩, d', rfl, ?_, ?_, .tau (.stop _ t (by simp)) ?_, e1, e2⟩
      · intro x hx
        by_cases hxt : x = t
        · subst hxt; rw [hr] at hx; cases hx
        · simp [setR, hxt]; exact h2 x (by simp [setR, hxt]; exact hx)
      · intro x h' hx
        by_cases hxt : x = t
        · subst hxt
          rw [hr] at hx; cases hx
          exact ⟨[], by simp, by simpa using hL⟩
        · simp [setR, hxt]; exact h3 x h' (by simp [setR, hxt]; exact hx)
      · have : (⟨A.put t c.M, setR (setR c'.R t (some [])) t none⟩ : Cfg α) = c' := by
          have hn := h2 t (by simp)
          cases c' with
          | mk M R =>
            simp at h1 ⊢
            refine ⟨h1.symm, ?_⟩
            funext x
            by_cases hxt : x = t
            · subst hxt; simp at hn; simp [hn]
            · simp [setR, hxt]
        rw [this]; exact r
  | @vis c c1 d w a s _ ih =>
    obtain ⟨c', d', h1, h2, h3, r, e1, e2⟩ := ih hd
    cases s with
    | emit t _ h hr =>
      obtain ⟨u, hu, hL⟩ := h3 t _ (by simp; rfl)
      refine ⟨⟨c.M, setR c'.R t (some (a :: u))⟩, d', rfl, ?_, ?_, .vis (.emit _ t a u (by simp)) ?_, e1, e2⟩
      · intro x hx
        by_cases hxt : x = t
        · subst hxt; rw [hr] at hx; cases hx
        · simp [setR, hxt]; exact h2 x (by simp [setR, hxt]; exact hx)
      · intro x h' hx
        by_cases hxt : x = t
        · subst hxt
          rw [hr] at hx; cases hx
          exact ⟨a :: u, by simp, by simpa using hL⟩
        · simp [setR, hxt]; exact h3 x h' (by simp [setR, hxt]; exact hx)
      · have : (⟨c.M, setR (setR c'.R t (some (a :: u))) t (some u)⟩ : Cfg α) = c' := by
          cases c' with
          | mk M R =>
            simp at h1 ⊢
            refine ⟨h1.symm, ?_⟩
            funext x
            by_cases hxt : x = t
            · subst hxt; simp at hu; simp [hu]
            · simp [setR, hxt]
        rw [this]; exact r

theorem langU_iff (A : ANet α) (i o : Nat) (w : List α) : LangU A i o w ↔ LangH A i o w := by
  constructor
  · rintro ⟨d, r, f1, f2⟩
    obtain ⟨d', r', e1, e2⟩ := u_h A r (init i) rfl (fun _ h => h) (fun t u h => by simp [init] at h)
    exact ⟨d', r', by rw [e1]; exact f1, fun t => e2 t (f2 t)⟩
  · rintro ⟨d, r, f1, f2⟩
    obtain ⟨c', d', h1, h2, _, r', e1, e2⟩ := h_u A r f2
    have : c' = init i := by
      cases c' with
      | mk M R =>
        simp only [init] at h1 h2 ⊢
        rw [h1]
        congr 1
        funext t
        exact h2 t trivial
    rw [this] at r'
    exact ⟨d', r', by rw [e1]; exact f1, e2⟩

/-- the net without tests at the end -/
def ANet.free (A : ANet α) : ANet α := { A with L := fun _ _ => True }

theorem stepH_free {A : ANet α} {c d : Cfg α} {o : Option α} (h : StepH A c o d) : StepH A.free c o d := by
  cases h with
  | start t h1 h2 h3 => exact .start (A := A.free) c t h1 h2 h3
  | emit t _ h h1 => exact .emit (A := A.free) c t _ h h1
  | stop t h h1 h2 => exact .stop (A := A.free) c t h h1 trivial

/-- reachable, without tests at the end -/
def Reach (A : ANet α) (i : Nat) (c : Cfg α) : Prop := ∃ w, Run (StepH A.free) (init i) w c

theorem Reach.step {A : ANet α} {i : Nat} {c d : Cfg α} {o : Option α} (h : Reach A i c) (s : StepH A.free c o d) : Reach A i d := by
  obtain ⟨w, hr⟩ := h
  exact ⟨_, hr.trans (Run.one s)⟩

theorem Reach.run {A : ANet α} {i : Nat} {c d : Cfg α} {w : List α} (h : Reach A i c) (s : Run (StepH A.free) c w d) : Reach A i d := by
  obtain ⟨v, hr⟩ := h
  exact ⟨_, hr.trans s⟩

/-- at most one token per place, none in the input and output places of a running transition -/
structure SafeCfg (A : ANet α) (c : Cfg α) : Prop where
  one : ∀ p, c.M p ≤ 1
  pre : ∀ t h p, c.R t = some h → A.pre t p → c.M p = 0
  post : ∀ t h p, c.R t = some h → A.post t p → c.M p = 0

def Safe (A : ANet α) (i : Nat) : Prop := ∀ c, Reach A i c → SafeCfg A c

/-- simulation of runs -/
theorem sim_run {S S' : Cfg α → Option α → Cfg α → Prop} (G : Cfg α → Prop) (Rel : Cfg α → Cfg α → Prop)
    (hG : ∀ c w d, G c → Run S' c w d → G d)
    (step : ∀ c c' o c1, G c' → Rel c c' → S c o c1 → ∃ c1', Run S' c' (oList o) c1' ∧ Rel c1 c1')
    {c d : Cfg α} {w : List α} (h : Run S c w d) : ∀ c', G c' → Rel c c' → ∃ d', Run S' c' w d' ∧ Rel d d' ∧ G d' := by
  induction h with
  | nil c => intro c' hg hc; exact ⟨c', .nil c', hc, hg⟩
  | tau s _ ih =>
    intro c' hg hc
    obtain ⟨c1', r1, h1⟩ := step _ _ _ _ hg hc s
    obtain ⟨d', r2, h2⟩ := ih c1' (hG _ _ _ hg r1) h1
    exact ⟨d', r1.trans r2, h2⟩
  | vis s _ ih =>
    intro c' hg hc
    obtain ⟨c1', r1, h1⟩ := step _ _ _ _ hg hc s
    obtain ⟨d', r2, h2⟩ := ih c1' (hG _ _ _ hg r1) h1
    exact ⟨d', r1.trans r2, h2⟩

/-- what a correct reduction step satisfies -/
def Red (A A' : ANet α) (i o : Nat) : Prop := Safe A' i → Safe A i ∧ ∀ w, LangH A i o w ↔ LangH A' i o w

theorem Red.trans {A B C : ANet α} {i o : Nat} (h1 : Red A B i o) (h2 : Red B C i o) : Red A C i o := fun h =>
  have ⟨s2, l2⟩ := h2 h
  have ⟨s1, l1⟩ := h1 s2
  ⟨s1, fun w => (l1 w).trans (l2 w)⟩

theorem Red.refl (A : ANet α) (i o : Nat) : Red A A i o := fun h => ⟨h, fun _ => Iff.rfl⟩

/-- the reduced net simulates the net (history semantics) -/
def Fwd (A A' : ANet α) (i o : Nat) : Prop := ∃ Rel : Cfg α → Cfg α → Prop, Rel (init i) (init i) ∧
  (∀ c c' l c1, Reach A' i c' → Safe A' i → Rel c c' → StepH A c l c1 → ∃ c1', Run (StepH A') c' (oList l) c1' ∧ Rel c1 c1') ∧
  (∀ c c', Reach A' i c' → Safe A' i → Rel c c' → SafeCfg A c) ∧
  (∀ c c', Reach A' i c' → Safe A' i → Rel c c' → Final o c → Final o c')

/-- the net simulates the reduced net (semantics with the sequence chosen at the start) -/
def Bwd (A A' : ANet α) (i o : Nat) : Prop := ∃ Rel : Cfg α → Cfg α → Prop, Rel (init i) (init i) ∧
  (∀ c' c l c1', Rel c' c → StepU A' c' l c1' → ∃ c1, Run (StepU A) c (oList l) c1 ∧ Rel c1' c1) ∧
  (∀ c' c, Rel c' c → Final o c' → Final o c)

/-- a reduction step is correct if the two nets simulate each other -/
theorem red_of {A A' : ANet α} {i o : Nat} (hf : Fwd A A' i o) (hff : Fwd A.free A'.free i o) (hb : Bwd A A' i o) : Red A A' i o := by
  intro hs
  have hr0 : Reach A' i (init i) := ⟨[], .nil _⟩
  refine ⟨?_, ?_⟩
  · rintro c ⟨w, hr⟩
    obtain ⟨Rel, hinit, hstep, hsafe, _⟩ := hff
    have hs' : Safe A'.free i := fun c hc => ⟨(hs c hc).one, (hs c hc).pre, (hs c hc).post⟩
    obtain ⟨c', _, hrel, hg⟩ := sim_run (Reach A'.free i) Rel (fun c w d h r => h.run (r.mono fun _ _ _ s => stepH_free s))
      (fun c c' o c1 hg hc s => hstep c c' o c1 hg hs' hc s) hr (init i) ⟨[], .nil _⟩ hinit
    have := hsafe c c' hg hs' hrel
    exact ⟨this.one, this.pre, this.post⟩
  · intro w
    constructor
    · rintro ⟨d, r, f⟩
      obtain ⟨Rel, hinit, hstep, _, hfin⟩ := hf
      obtain ⟨d', r', hrel, hg⟩ := sim_run (Reach A' i) Rel (fun c w d h r => h.run (r.mono fun _ _ _ s => stepH_free s))
        (fun c c' o c1 hg hc s => hstep c c' o c1 hg hs hc s) r (init i) hr0 hinit
      exact ⟨d', r', hfin d d' hg hs hrel f⟩
    · intro h
      rw [← langU_iff] at h ⊢
      obtain ⟨d, r, f⟩ := h
      obtain ⟨Rel, uinit, ustep, ufin⟩ := hb
      obtain ⟨d', r', hrel, _⟩ := sim_run (fun _ => True) Rel (fun _ _ _ _ _ => trivial) (fun c c' o c1 _ hc s => ustep c c' o c1 hc s) r (init i) trivial uinit
      exact ⟨d', r', ufin d d' hrel f⟩

/-- only transitions of the net run -/
theorem Reach.run_T {A : ANet α} {i : Nat} {c : Cfg α} (h : Reach A i c) {t : Nat} {u : List α} (hr : c.R t = some u) : A.T t := by
  obtain ⟨w, hw⟩ := h
  have key : ∀ {c d : Cfg α} {w : List α}, Run (StepH A.free) c w d → (∀ t u, c.R t = some u → A.T t) → ∀ t u, d.R t = some u → A.T t := by
    intro c d w hw
    induction hw with
    | nil c => exact fun h => h
    | @tau c c1 d w s _ ih =>
      intro h
      refine ih fun t u hu => ?_
      cases s with
      | start x hT hn hp =>
        by_cases hx : t = x
        · subst hx; exact hT
        · simp [setR, hx] at hu; exact h t u hu
      | stop x h' hr hL =>
        by_cases hx : t = x
        · subst hx; simp at hu
        · simp [setR, hx] at hu; exact h t u hu
    | @vis c c1 d w a s _ ih =>
      intro h
      refine ih fun t u hu => ?_
      cases s with
      | emit x _ h' hr =>
        by_cases hx : t = x
        · subst hx; exact h _ _ hr
        · simp [setR, hx] at hu; exact h t u hu
  exact key hw (fun t u hu => by simp [init] at hu) t u hr

/-- two transitions that run do not share an output place, and neither produces into an input place of the other -/
theorem Safe.no_post {A : ANet α} {i : Nat} (hs : Safe A i) {c : Cfg α} (hc : Reach A i c) {t x : Nat} {u v : List α} (ht : c.R t = some u)
    (hx : c.R x = some v) (hn : x ≠ t) (p : Nat) (hp : A.post x p) : ¬ A.pre t p ∧ ¬ A.post t p := by
  have h1 : Reach A i ⟨A.put x c.M, setR c.R x none⟩ := hc.step (.stop (A := A.free) c x v hx trivial)
  have h2 := hs _ h1
  have h3 : (setR c.R x none) t = some u := by rw [setR_ne _ _ (Ne.symm hn)]; exact ht
  constructor
  · intro hq
    have := h2.pre t u p h3 hq
    simp [ANet.put, hp] at this
  · intro hq
    have := h2.post t u p h3 hq
    simp [ANet.put, hp] at this

end Verif.WfTree
